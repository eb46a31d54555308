import Verif.Spec.Fock
import Verif.Proofs.Canon
/-! # C15-C17: sorting indices, operators and tensor indices -/
namespace Wicked

/-- **C15** `canonicalize_indices(indices, reversed)`: the returned list is a rearrangement
`out[i] = in[σ i]`, the returned sign is the sign of `σ`, the list is sorted (increasingly, or
decreasingly when reversed), and every antisymmetric function of the indices changes by exactly the
returned sign. -/
theorem C15_canonicalize_indices (l : List Index) (reversed : Bool) :
    (∃ σ : Equiv.Perm (Fin l.length),
      (canonicalizeIndices l reversed).1 = List.ofFn (fun i => l[σ i]) ∧
      (canonicalizeIndices l reversed).2 = (Equiv.Perm.sign σ : ℤ)) ∧
    (reversed = false → (canonicalizeIndices l reversed).1.Pairwise (fun a b => Index.lt b a = false)) ∧
    (reversed = true → (canonicalizeIndices l reversed).1.Pairwise (fun a b => Index.lt a b = false)) ∧
    (∀ (M : Type) [AddCommGroup M] (f : List Index → M), AntisymmFun f →
      f l = (canonicalizeIndices l reversed).2 • f (canonicalizeIndices l reversed).1) := by
  refine ⟨?_, ?_, ?_, ?_⟩
  · obtain ⟨L, hL, e⟩ := canonicalizeIndices_eq l reversed
    rw [e]; exact enum_perm_spec l L hL
  · rintro rfl
    exact sorted_fst (stdSort_sorted (enumFrom 0 l))
  · rintro rfl
    show ((stdSortRev (enumFrom 0 l)).map Prod.fst).Pairwise _
    have := stdSortRev_sorted (enumFrom 0 l)
    rw [List.pairwise_map]
    refine this.imp ?_
    intro a b h
    simp only [pair_lt, Bool.or_eq_false_iff] at h
    exact h.1
  · intro M _ f hf
    obtain ⟨L, hL, e⟩ := canonicalizeIndices_eq l reversed
    rw [e]; exact enum_perm_antisymm l L hL f hf

example : canonicalizeIndices [⟨1, 0⟩, ⟨0, 2⟩, ⟨0, 1⟩] false = ([⟨0, 1⟩, ⟨0, 2⟩, ⟨1, 0⟩], -1) ∧
    canonicalizeIndices [⟨1, 0⟩, ⟨0, 2⟩, ⟨0, 1⟩] true = ([⟨1, 0⟩, ⟨0, 2⟩, ⟨0, 1⟩], 1) := by decide

instance SQOp.decFermion (o : OSI) (a : SQOp) : Decidable (a.IsFermion o) := inferInstanceAs (Decidable (_ = _))
instance SQOp.decBoson (o : OSI) (a : SQOp) : Decidable (a.IsBoson o) := inferInstanceAs (Decidable (_ = _))

theorem opsProd_antisymm {A : Type} [Ring A] (v : SQOp → A)
    (h : ∀ a b : SQOp, v a * v b = - (v b * v a)) : AntisymmFun (opsProd v) := by
  intro pre a b post
  simp only [opsProd, List.map_append, List.map_cons, List.prod_append, List.prod_cons]
  rw [← mul_assoc (v a), h a b, ← mul_assoc (v b)]; simp

/-- anticommutation on the operators that occur is enough -/
theorem canonicalizeSqops_value {A : Type} [Ring A] (v : SQOp → A) (l : List SQOp) (reversed : Bool)
    (h : ∀ a ∈ l, ∀ b ∈ l, v a * v b = - (v b * v a)) :
    opsProd v l = (canonicalizeSqops l reversed).2 • opsProd v (canonicalizeSqops l reversed).1 := by
  classical
  obtain ⟨L, hL, e⟩ := canonicalizeSqops_eq l reversed
  rw [e]
  let v' : SQOp → A := fun a => if a ∈ l then v a else 0
  have hv' : ∀ a b : SQOp, v' a * v' b = - (v' b * v' a) := by
    intro a b
    simp only [v']
    by_cases ha : a ∈ l <;> by_cases hb : b ∈ l <;> simp [ha, hb]
    exact h a ha b hb
  have key := enum_perm_antisymm l L hL (opsProd v') (opsProd_antisymm v' hv')
  have hl : opsProd v' l = opsProd v l := by
    unfold opsProd; congr 1; apply List.map_congr_left; intro a ha; simp [v', ha]
  have hL' : opsProd v' (L.map Prod.fst) = opsProd v (L.map Prod.fst) := by
    unfold opsProd; congr 1; apply List.map_congr_left; intro a ha
    have : a ∈ l := by
      have := (hL.map Prod.fst).subset ha
      rwa [enumFrom_map_fst] at this
    simp [v', this]
  rw [hl, hL'] at key
  exact key

/-- **C16 (partial: fermionic strings)** for every string of operators on fermionic spaces:
`sign * sorted product = original product` in every ring with anticommuting fermions; the result is
a rearrangement, sorted by `operator<`.  Missing: strings containing bosons, for which the statement
is false (`C16_boson_sign_wrong`). -/
theorem C16_canonicalize_sqops_partial (o : OSI) (A : Type) [Ring A] (v : SQOp → A)
    (hv : GradedCommutative o v) (l : List SQOp) (reversed : Bool) (hl : ∀ a ∈ l, a.IsFermion o) :
    (canonicalizeSqops l reversed).1.Perm l ∧
    (reversed = false → (canonicalizeSqops l reversed).1.Pairwise (fun a b => SQOp.ltB b a = false)) ∧
    (reversed = true → (canonicalizeSqops l reversed).1.Pairwise (fun a b => SQOp.ltB a b = false)) ∧
    ((canonicalizeSqops l reversed).2 = 1 ∨ (canonicalizeSqops l reversed).2 = -1) ∧
    opsProd v l = (canonicalizeSqops l reversed).2 • opsProd v (canonicalizeSqops l reversed).1 := by
  refine ⟨?_, ?_, ?_, ?_, canonicalizeSqops_value v l reversed
    (fun a ha b hb => hv.fermion a b (hl a ha) (hl b hb))⟩
  · obtain ⟨L, hL, e⟩ := canonicalizeSqops_eq l reversed
    rw [e]; have := hL.map Prod.fst; rwa [enumFrom_map_fst] at this
  · rintro rfl
    exact sorted_fst (stdSort_sorted (enumFrom 0 l))
  · rintro rfl
    show ((stdSortRev (enumFrom 0 l)).map Prod.fst).Pairwise _
    have := stdSortRev_sorted (enumFrom 0 l)
    rw [List.pairwise_map]
    refine this.imp ?_
    intro a b h
    simp only [pair_lt, Bool.or_eq_false_iff] at h
    exact h.1
  · obtain ⟨L, hL, e⟩ := canonicalizeSqops_eq l reversed
    rw [e]; exact permutationSign_cases _

/-- a registry with one fermionic and one bosonic space -/
def fbRegistry : OSI :=
  ⟨[⟨'o', .fermion, .occupied, [], []⟩, ⟨'b', .boson, .unoccupied, [], []⟩], [('b', 1), ('o', 0)], []⟩

/-- **C16 is false for bosons**: two bosonic creation operators in the wrong order are sorted with
sign `-1` although they commute: in the valuation by the number 1 the value changes sign. -/
theorem C16_boson_sign_wrong :
    ∃ (l : List SQOp) (v : SQOp → ℤ), (∀ a ∈ l, a.IsBoson fbRegistry) ∧
      GradedCommutative fbRegistry v ∧
      opsProd v l ≠ (canonicalizeSqops l false).2 • opsProd v (canonicalizeSqops l false).1 := by
  refine ⟨[⟨.creation, ⟨1, 1⟩⟩, ⟨.creation, ⟨1, 0⟩⟩], fun a => if a.index.space = 1 then 1 else 0,
    by decide, ⟨?_, ?_⟩, by decide⟩
  · intro a b ha hb
    have : a.index.space ≠ 1 := by
      intro h; unfold SQOp.IsFermion SQOp.fieldType at ha; rw [h] at ha; revert ha; decide
    simp [this]
  · intro a b _; ring

/-- non-vacuity: fermionic strings exist, and the sort does something -/
example : (∀ a ∈ ([⟨.annihilation, ⟨0, 0⟩⟩, ⟨.creation, ⟨0, 1⟩⟩] : List SQOp), a.IsFermion fbRegistry) ∧
    canonicalizeSqops [⟨.annihilation, ⟨0, 0⟩⟩, ⟨.creation, ⟨0, 1⟩⟩] false =
      ([⟨.creation, ⟨0, 1⟩⟩, ⟨.annihilation, ⟨0, 0⟩⟩], -1) := by decide

/-! ## C17 -/

theorem tensor_canonicalize_ok (t : Tensor) (h : t.symm ≠ .nonsymmetric) :
    ∃ s : ℤ, (s = 1 ∨ s = -1) ∧ s = (canonicalizeIndices t.upper false).2 * (canonicalizeIndices t.lower false).2 ∧
    t.canonicalize = .ok ({ t with lower := (canonicalizeIndices t.lower false).1, upper := (canonicalizeIndices t.upper false).1 },
      Rational.ofInt (if t.symm = .antisymmetric then s else 1)) := by
  have h1 : (canonicalizeIndices t.upper false).2 = 1 ∨ (canonicalizeIndices t.upper false).2 = -1 :=
    permutationSign_cases _
  have h2 : (canonicalizeIndices t.lower false).2 = 1 ∨ (canonicalizeIndices t.lower false).2 = -1 :=
    permutationSign_cases _
  refine ⟨_, ?_, rfl, ?_⟩
  · rcases h1 with h1 | h1 <;> rcases h2 with h2 | h2 <;> simp [h1, h2]
  · unfold Tensor.canonicalize
    rw [if_neg h]
    have key : ∀ x y : ℤ, (x = 1 ∨ x = -1) → (y = 1 ∨ y = -1) →
        Rational.mul (Rational.mul (Rational.ofInt 1) (Rational.ofInt x)) (Rational.ofInt y) =
          Rational.ofInt (x * y) := by
      rintro x y (rfl | rfl) (rfl | rfl) <;> decide
    simp only [key _ _ h1 h2]
    split <;> rfl

/-- **C17** `Tensor::canonicalize`: an antisymmetric or symmetric tensor is accepted; the new tensor
has the same label and flags, sorted rearrangements of the index lists; the phase is `±1`, it is the
factor by which every valuation with the declared symmetry changes; a second call returns phase 1 and
changes nothing; a nonsymmetric tensor is rejected with an exception. -/
theorem C17_tensor_canonicalize (t : Tensor) :
    (t.symm = .nonsymmetric → t.canonicalize = .error .throw) ∧
    (t.symm ≠ .nonsymmetric → ∃ (t' : Tensor) (s : ℤ), t.canonicalize = .ok (t', Rational.ofInt s) ∧
      (s = 1 ∨ s = -1) ∧
      t'.label = t.label ∧ t'.symm = t.symm ∧ t'.conj = t.conj ∧
      t'.upper.Perm t.upper ∧ t'.lower.Perm t.lower ∧
      t'.upper.Pairwise (fun a b => Index.lt b a = false) ∧
      t'.lower.Pairwise (fun a b => Index.lt b a = false) ∧
      (t.symm = .antisymmetric → ∀ (M : Type) [AddCommGroup M] (τ : List Index → List Index → M),
        AntisymmVal τ → τ t.lower t.upper = s • τ t'.lower t'.upper) ∧
      (t.symm = .symmetric → s = 1 ∧ ∀ (M : Type) (τ : List Index → List Index → M),
        SymmVal τ → τ t.lower t.upper = τ t'.lower t'.upper) ∧
      t'.canonicalize = .ok (t', Rational.ofInt 1)) := by
  constructor
  · intro h; unfold Tensor.canonicalize; rw [if_pos h]
  intro h
  obtain ⟨s, hs, hs2, e⟩ := tensor_canonicalize_ok t h
  have pu : (canonicalizeIndices t.upper false).1.Perm t.upper := by
    have := (stdSort_perm (enumFrom 0 t.upper)).map Prod.fst
    rwa [enumFrom_map_fst] at this
  have pl : (canonicalizeIndices t.lower false).1.Perm t.lower := by
    have := (stdSort_perm (enumFrom 0 t.lower)).map Prod.fst
    rwa [enumFrom_map_fst] at this
  have su := (C15_canonicalize_indices t.upper false).2.1 rfl
  have sl := (C15_canonicalize_indices t.lower false).2.1 rfl
  refine ⟨_, _, e, ?_, rfl, rfl, rfl, pu, pl, su, sl, ?_, ?_, ?_⟩
  · split
    · exact hs
    · simp
  · intro ha M _ τ hτ
    rw [if_pos ha, hs2]
    have h1 := (C15_canonicalize_indices t.upper false).2.2.2 M (τ t.lower) (hτ.2 _)
    have h2 := (C15_canonicalize_indices t.lower false).2.2.2 M
      (fun l => τ l (canonicalizeIndices t.upper false).1) (hτ.1 _)
    rw [h1]; erw [h2]; rw [smul_smul]
  · intro ha
    rw [if_neg (by rw [ha]; decide)]
    exact ⟨rfl, fun M τ hτ => hτ _ _ _ _ pl.symm pu.symm⟩
  · obtain ⟨s', hs', hs2', e'⟩ := tensor_canonicalize_ok
      { t with lower := (canonicalizeIndices t.lower false).1, upper := (canonicalizeIndices t.upper false).1 } h
    have cu := canon_of_sorted _ su
    have cl := canon_of_sorted _ sl
    have cu1 : (canonicalizeIndices (canonicalizeIndices t.upper false).1 false) =
      ((canonicalizeIndices t.upper false).1, 1) := Prod.ext cu.1 cu.2
    have cl1 : (canonicalizeIndices (canonicalizeIndices t.lower false).1 false) =
      ((canonicalizeIndices t.lower false).1, 1) := Prod.ext cl.1 cl.2
    rw [e']
    rw [cu1, cl1] at hs2'
    rw [cu1, cl1, hs2']; simp

example : Tensor.canonicalize ⟨['t'], [⟨0, 1⟩, ⟨0, 0⟩], [⟨1, 0⟩, ⟨1, 1⟩], .antisymmetric, false⟩ =
    .ok (⟨['t'], [⟨0, 0⟩, ⟨0, 1⟩], [⟨1, 0⟩, ⟨1, 1⟩], .antisymmetric, false⟩, Rational.ofInt (-1)) := by decide

/-- non-vacuity of `AntisymmVal`: a non-zero antisymmetric valuation exists -/
example : ∃ τ : List Index → List Index → ℤ, AntisymmVal τ ∧
    τ [⟨0, 0⟩, ⟨0, 1⟩] [] = 1 ∧ τ [⟨0, 1⟩, ⟨0, 0⟩] [] = -1 := by
  refine ⟨fun l u => match l, u with
    | [a, b], [] => b.pos - a.pos
    | _, _ => 0, ⟨?_, ?_⟩, by decide, by decide⟩
  · intro u pre a b post
    rcases u with _ | ⟨_, _⟩
    · rcases pre with _ | ⟨p, pre⟩
      · rcases post with _ | ⟨q, post⟩
        · simp
        · simp
      · rcases pre with _ | ⟨q, pre⟩ <;> simp
    · simp
  · intro l pre a b post
    rcases pre with _ | ⟨p, pre⟩ <;> simp

end Wicked
