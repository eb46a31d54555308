import Verif.Proofs.FockSpace
import Verif.Spec.ManyBody
import Mathlib.RingTheory.Nilpotent.Exp
/-! # The number of electrons in Fock space -/
namespace Wicked

section
variable {Ω : Type} [LinearOrder Ω] {R : Type} [CommRing R]

/-- the number of electrons of a determinant, relative to the vacuum -/
def charge (hole : Ω → Bool) (S : Finset Ω) : Int := ((S.filter (fun x => hole x = false)).card : Int) - (S.filter (fun x => hole x = true)).card

theorem charge_insert (hole : Ω → Bool) {S : Finset Ω} {x : Ω} (h : x ∉ S) : charge hole (insert x S) = charge hole S + (if hole x then -1 else 1) := by
  unfold charge
  rw [Finset.filter_insert, Finset.filter_insert]
  cases hx : hole x
  · rw [if_pos rfl, if_neg (by decide), Finset.card_insert_of_notMem (by simp [h])]; rw [Nat.cast_add, Nat.cast_one]; show _ = _ + (1 : Int); ring
  · rw [if_neg (by decide), if_pos rfl, Finset.card_insert_of_notMem (by simp [h])]; rw [Nat.cast_add, Nat.cast_one]; show _ = _ + (-1 : Int); ring

/-- the operators that add `d` electrons to every determinant -/
def shifts (R : Type) [CommRing R] (hole : Ω → Bool) (d : Int) : Submodule R (Module.End R (FockSpace Ω R)) where
  carrier := {W | ∀ S S', W (Finsupp.single S 1) S' ≠ 0 → charge hole S' = charge hole S + d}
  zero_mem' := fun S S' h => absurd rfl h
  add_mem' := by
    intro a b ha hb S S' h
    rw [LinearMap.add_apply, Finsupp.add_apply] at h
    by_cases h1 : a (Finsupp.single S 1) S' = 0
    · rw [h1, zero_add] at h; exact hb S S' h
    · exact ha S S' h1
  smul_mem' := by
    intro c a ha S S' h
    rw [LinearMap.smul_apply, Finsupp.smul_apply] at h
    exact ha S S' (fun h0 => h (by rw [h0, smul_zero]))

theorem shifts_mul {hole : Ω → Bool} {d d' : Int} {a b : Module.End R (FockSpace Ω R)} (ha : a ∈ shifts R hole d) (hb : b ∈ shifts R hole d') : a * b ∈ shifts R hole (d + d') := by
  intro S S' h
  rw [Module.End.mul_apply] at h
  have e : a (b (Finsupp.single S 1)) S' = ∑ S'' ∈ (b (Finsupp.single S 1)).support, b (Finsupp.single S 1) S'' * a (Finsupp.single S'' 1) S' := by
    conv_lhs => rw [← Finsupp.sum_single (b (Finsupp.single S 1)), Finsupp.sum, map_sum, Finsupp.finsetSum_apply]
    apply Finset.sum_congr rfl
    intro S'' _
    have : Finsupp.single S'' (b (Finsupp.single S 1) S'') = b (Finsupp.single S 1) S'' • (Finsupp.single S'' 1 : FockSpace Ω R) := by
      rw [Finsupp.smul_single, smul_eq_mul, mul_one]
    rw [this, map_smul, Finsupp.smul_apply, smul_eq_mul]
  rw [e] at h
  obtain ⟨S'', hS, h0⟩ := Finset.exists_ne_zero_of_sum_ne_zero h
  have h1 := hb S S'' (fun h => h0 (by rw [h, zero_mul]))
  have h2 := ha S'' S' (fun h => h0 (by rw [h, mul_zero]))
  rw [h2, h1]; ring

theorem shifts_one (hole : Ω → Bool) : (1 : Module.End R (FockSpace Ω R)) ∈ shifts R hole 0 := by
  intro S S' h
  rw [Module.End.one_apply, Finsupp.single_apply] at h
  split_ifs at h with e
  · rw [e, add_zero]
  · exact absurd rfl h

theorem shifts_quasiCre (hole : Ω → Bool) (x : Ω) : quasiCre R x ∈ shifts R hole (if hole x then -1 else 1) := by
  intro S S' h
  rw [quasiCre_single] at h
  split_ifs at h with e
  · exact absurd rfl h
  · rw [Finsupp.single_apply] at h
    split_ifs at h with e'
    · rw [← e', charge_insert hole e]
    · exact absurd rfl h

theorem shifts_quasiAnn (hole : Ω → Bool) (x : Ω) : quasiAnn R x ∈ shifts R hole (if hole x then 1 else -1) := by
  intro S S' h
  rw [quasiAnn_single] at h
  split_ifs at h with e
  · rw [Finsupp.single_apply] at h
    split_ifs at h with e'
    · have := charge_insert hole (Finset.notMem_erase x S)
      rw [Finset.insert_erase e] at this
      rw [← e', this]
      cases hole x <;> simp
    · exact absurd rfl h
  · exact absurd rfl h

/-- the number of electrons that an operator adds -/
def opCharge : SQType × Ω → Int
  | (.creation, _) => 1
  | (.annihilation, _) => -1

theorem shifts_op (hole : Ω → Bool) (m : SQType × Ω) : fockOp R hole m.1 m.2 ∈ shifts R hole (opCharge m) := by
  obtain ⟨s, x⟩ := m
  have h1 := shifts_quasiCre (R := R) hole x
  have h2 := shifts_quasiAnn (R := R) hole x
  cases s <;> cases hx : hole x <;> simp only [hx, fockOp, opCharge, if_true, Bool.false_eq_true, if_false] at h1 h2 ⊢ <;> assumption

theorem shifts_word (hole : Ω → Bool) : ∀ w : List (SQType × Ω), (w.map (fun m => fockOp R hole m.1 m.2)).prod ∈ shifts R hole (w.map opCharge).sum
  | [] => shifts_one hole
  | m :: w => by
    rw [List.map_cons (f := opCharge), List.sum_cons]
    exact shifts_mul (shifts_op hole m) (shifts_word hole w)

theorem shifts_normalProd (hole : Ω → Bool) (l : List (SQType × Ω)) : normalProd hole (fockOp R hole) l ∈ shifts R hole (l.map opCharge).sum := by
  have hz : ∀ n : Int, ((n : Int) : Module.End R (FockSpace Ω R)) ∈ shifts R hole 0 := by
    intro n
    have := Submodule.smul_mem _ (n : R) (shifts_one (R := R) hole)
    rwa [← Algebra.algebraMap_eq_smul_one, map_intCast] at this
  have h := shifts_mul (shifts_word (R := R) hole (l.filter (fun m => !kills hole m))) (shifts_word (R := R) hole (l.filter (fun m => kills hole m)))
  have e : (l.map opCharge).sum = ((l.filter (fun m => !kills hole m)).map opCharge).sum + ((l.filter (fun m => kills hole m)).map opCharge).sum := by
    rw [add_comm, ← List.sum_append, ← List.map_append]
    exact ((List.filter_append_perm (fun m => kills hole m) l).map opCharge).sum_eq.symm
  rw [e]
  have := shifts_mul (hz (normalSign hole l)) h
  rw [zero_add] at this
  exact this
end

section
variable {Ω : Type} [LinearOrder Ω] {R : Type} [CommRing R] [Algebra ℚ R]

theorem shifts_qsmul {hole : Ω → Bool} {d : Int} (q : ℚ) {a : Module.End R (FockSpace Ω R)} (ha : a ∈ shifts R hole d) : q • a ∈ shifts R hole d := by
  rw [← algebraMap_smul R q a]
  exact Submodule.smul_mem _ _ ha

theorem opCharge_balance (p q : List Ω) : ((p.map (fun x => (SQType.creation, x)) ++ (q.map (fun x => (SQType.annihilation, x))).reverse).map opCharge).sum = (p.length : Int) - q.length := by
  rw [List.map_append, List.sum_append, List.map_reverse, List.sum_reverse]
  have h1 : ∀ p : List Ω, ((p.map (fun x => (SQType.creation, x))).map opCharge).sum = (p.length : Int) := by
    intro p
    induction p with
    | nil => rfl
    | cons a p ih => simp only [List.map_cons, List.sum_cons, ih, opCharge, List.length_cons]; push_cast; ring
  have h2 : ∀ p : List Ω, ((p.map (fun x => (SQType.annihilation, x))).map opCharge).sum = -(p.length : Int) := by
    intro p
    induction p with
    | nil => rfl
    | cons a p ih => simp only [List.map_cons, List.sum_cons, ih, opCharge, List.length_cons]; push_cast; ring
  rw [h1, h2]; ring

/-- many-body operators conserve the number of electrons -/
theorem shifts_manyBody (hole : Ω → Bool) (T : List Ω → List Ω → R) (n : Nat) (C A : Finset Ω) : manyBody T (normalProd hole (fockOp R hole)) n C A ∈ shifts R hole 0 := by
  unfold manyBody
  apply shifts_qsmul
  apply Submodule.sum_mem
  intro p _
  apply Submodule.sum_mem
  intro q _
  apply Submodule.smul_mem
  have := shifts_normalProd (R := R) hole ((List.ofFn p).map (fun x => (.creation, x)) ++ ((List.ofFn q).map (fun x => (.annihilation, x))).reverse)
  rwa [opCharge_balance, List.length_ofFn, List.length_ofFn, sub_self] at this

theorem shifts_exp {hole : Ω → Bool} {a : Module.End R (FockSpace Ω R)} (ha : a ∈ shifts R hole 0) : IsNilpotent.exp a ∈ shifts R hole 0 := by
  have hp : ∀ k : Nat, a ^ k ∈ shifts R hole 0 := by
    intro k
    induction k with
    | zero => rw [pow_zero]; exact shifts_one hole
    | succ k ih => rw [pow_succ]; have := shifts_mul ih ha; rwa [add_zero] at this
  unfold IsNilpotent.exp
  apply Submodule.sum_mem
  intro k _
  exact shifts_qsmul _ (hp k)

/-- an operator that conserves the number of electrons takes the vacuum to determinants with as many electrons -/
theorem shifts_vacuum {hole : Ω → Bool} {a : Module.End R (FockSpace Ω R)} (ha : a ∈ shifts R hole 0) {S : Finset Ω} (h : a (fockVacuum R) S ≠ 0) :
    (S.filter (fun x => hole x = false)).card = (S.filter (fun x => hole x = true)).card := by
  have := ha ∅ S h
  simp only [charge, Finset.filter_empty, Finset.card_empty] at this
  omega
end
end Wicked
