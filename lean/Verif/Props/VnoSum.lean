import Verif.Spec.SummedCCR
import Verif.Props.NormalOrder
import Verif.Props.CanonTerm
import Verif.Props.WickProduct
/-! # C65: vacuum normal ordering and the summation convention -/
namespace Wicked
open CppLt CppEq Rational Lin STerm

theorem pairsCarried_of_covered {t : STerm} (h : t.Covered) : t.PairsCarried := fun a ha _ _ _ _ => h a ha

/-- no index is lost or invented -/
theorem vnoAux_idx {o : OSI} {s : Bool} : ∀ (fuel : Nat) (t : STerm) (c : Rational) (r), t.PairsCarried →
    vnoAux o s fuel t c = .ok r → ∀ p ∈ r, ∀ i, i ∈ p.1.allIdx ↔ i ∈ t.allIdx := by
  intro fuel
  induction fuel with
  | zero => intro t c r _ h; cases h
  | succ fuel ih =>
    intro t c r hpc h
    rw [vnoAux] at h
    by_cases he : t.ops.isEmpty = true
    · rw [if_pos he] at h
      cases h; intro p hp i; rw [List.mem_singleton] at hp; subst hp; rfl
    · rw [if_neg he] at h
      cases hv : noAdjacentIdentical o t.ops with
      | error x => rw [hv] at h; cases h
      | ok valid =>
        rw [hv] at h
        cases valid with
        | false => cases h; simp
        | true =>
          cases hf : adjFind (fun a b => lt b a) t.ops with
          | none =>
            simp only [bind, Except.bind, hf] at h
            cases h; intro p hp i; rw [List.mem_singleton] at hp; subst hp; rfl
          | some q =>
            rcases q with ⟨pre, a, b, post⟩
            obtain ⟨hl, hlt⟩ := adjFind_some hf
            simp only [bind, Except.bind, hf] at h
            cases hsg : a.commutatorFactor o b with
            | error x => rw [hsg] at h; cases h
            | ok sg =>
              rw [hsg] at h
              simp only at h
              have hmem : ∀ x, x ∈ t.ops ↔ x ∈ pre ∨ x = a ∨ x = b ∨ x ∈ post := by
                intro x; rw [hl]; simp
              cases hr1 : vnoAux o s fuel ⟨false, pre ++ b :: a :: post, t.tensors⟩ (Rational.mul c sg) with
              | error x => rw [hr1] at h; cases h
              | ok r1 =>
                rw [hr1] at h
                have i1 := ih _ _ _ (by
                  intro x hx y hy
                  refine hpc x ?_ y ?_
                  · rw [hmem]; simp at hx; tauto
                  · rw [hmem]; simp at hy; tauto) hr1
                have i1' : ∀ p ∈ r1, ∀ i, i ∈ p.1.allIdx ↔ i ∈ t.allIdx := by
                  intro p hp i
                  rw [i1 p hp i]
                  unfold STerm.allIdx
                  rw [hl]; simp only [List.mem_append, List.mem_cons, List.map_append, List.map_cons]
                  tauto
                simp only at h
                by_cases hcond : (a.isCre != b.isCre && decide (a.index.space = b.index.space)) = true
                · simp only [hcond] at h
                  by_cases hcond2 : (!s || decide (a.index = b.index)) = true
                  · simp only [hcond2] at h
                    generalize hT : (if decide (a.index = b.index) = true then t.tensors else t.tensors ++ [deltaTensor a b]) = T at h
                    have hTsub : ∀ x ∈ t.tensors, x ∈ T := by
                      intro x hx; rw [← hT]; split
                      · exact hx
                      · exact List.mem_append_left _ hx
                    cases hr2 : vnoAux o s fuel ⟨false, pre ++ post, T⟩ c with
                    | error x => rw [hr2] at h; cases h
                    | ok r2 =>
                      rw [hr2] at h
                      cases h
                      have i2 := ih _ _ _ (by
                        intro x hx y hy h1 h2
                        obtain ⟨z, hz, hz'⟩ := hpc x (by rw [hmem]; simp at hx; tauto) y (by rw [hmem]; simp at hy; tauto) h1 h2
                        exact ⟨z, hTsub z hz, hz'⟩) hr2
                      intro p hp i
                      rcases List.mem_append.1 hp with hp | hp
                      · exact i1' p hp i
                      rw [i2 p hp i]
                      unfold STerm.allIdx
                      rw [hl]
                      by_cases hij : a.index = b.index
                      · rw [← hT, if_pos (by simpa using hij)]
                        obtain ⟨z, hz, hz'⟩ := hpc a (by rw [hmem]; tauto) b (by rw [hmem]; tauto)
                          (by
                            intro hh
                            simp only [SQOp.isCre, hh, bne_self_eq_false, Bool.false_and, Bool.false_eq_true] at hcond) hij
                        have hz2 : a.index ∈ t.tensors.flatMap (fun x => x.lower ++ x.upper) := List.mem_flatMap.2 ⟨z, hz, hz'⟩
                        simp only [List.mem_append, List.map_append, List.map_cons, List.mem_cons]
                        constructor
                        · tauto
                        · rintro ((h | rfl | rfl | h) | h)
                          · tauto
                          · exact Or.inr hz2
                          · rw [← hij]; exact Or.inr hz2
                          · tauto
                          · tauto
                      · rw [← hT, if_neg (by simpa using hij)]
                        have hd : ∀ i, i ∈ (deltaTensor a b).lower ++ (deltaTensor a b).upper ↔ i = a.index ∨ i = b.index := by
                          intro i
                          unfold deltaTensor
                          cases b.isCre <;> simp [or_comm]
                        simp only [List.flatMap_append, List.flatMap_cons, List.flatMap_nil, List.append_nil, List.mem_append, List.map_append, List.map_cons, List.mem_cons]
                        have := hd i
                        rw [List.mem_append] at this
                        rw [this]
                        tauto
                  · simp only [hcond2] at h
                    cases h; exact i1'
                · simp only [hcond] at h
                  cases h; exact i1'

section
variable {Ω R A : Type} [Inhabited Ω] [DecidableEq Ω] [CommRing R] [Ring A] [Algebra R A] [Algebra ℚ A]

/-- the valuation in which every index denotes the orbital that `σ` assigns to it -/
def OrbSystem.at (v : OrbSystem Ω R A) (σ : Index → Ω) : Valuation R A :=
  ⟨fun l lo up => v.T l (lo.map σ) (up.map σ), fun i => v.op .creation (σ i), fun i => v.op .annihilation (σ i)⟩

theorem at_term (v : OrbSystem Ω R A) (σ : Index → Ω) (t : STerm) : (v.at σ).term t = v.inst σ t := by
  unfold Valuation.term OrbSystem.inst Valuation.tensors Valuation.ops
  congr 2
  apply List.map_congr_left
  intro a _
  rcases a with ⟨k, i⟩
  cases k <;> rfl

theorem at_ccr {v : OrbSystem Ω R A} {o : OSI} (hv : v.CCR o) {σ : Index → Ω} {P : Index → Prop} (hreg : ∀ i, P i → i.Registered o)
    (hσ : ∀ i, P i → σ i ∈ v.dom i.space) : CCROn (v.at σ) o σ P := by
  refine ⟨hreg, ?_, ?_, ?_, ?_, ?_, ?_⟩
  · intro i j hi hj
    exact hv.same _ _ (hreg i hi) (hreg j hj) _ (hσ i hi) _ (hσ j hj) .creation
  · intro i j hi hj
    exact hv.same _ _ (hreg i hi) (hreg j hj) _ (hσ i hi) _ (hσ j hj) .annihilation
  · intro i j hi hj _ ho
    have := hv.mixed _ _ (hreg i hi) (hreg j hj) _ (hσ i hi) _ (hσ j hj)
    rw [if_pos ho] at this
    exact this
  · intro i j hi hj ho
    have := hv.mixed _ _ (hreg i hi) (hreg j hj) _ (hσ i hi) _ (hσ j hj)
    rw [if_neg, add_zero] at this
    · exact this
    · intro hx
      refine ho ⟨?_, hx⟩
      by_contra hne
      exact Finset.disjoint_left.1 (hv.disjoint _ _ (hreg i hi) (hreg j hj) hne) (hσ i hi) (hx ▸ hσ j hj)
  · intro i j _ _ ho
    show v.T _ [σ i] [σ j] = 1
    rw [hv.delta, if_pos ho]
  · intro i j _ _ ho
    show v.T _ [σ i] [σ j] = 0
    rw [hv.delta, if_neg ho]

theorem vno_summed {v : OrbSystem Ω R A} {o : OSI} (hv : v.CCR o) {t : STerm} (hr : t.OpsRegistered o) (hp : t.PairsCarried) {fuel : Nat} {c : Rational}
    (hc : Canon c) {l} (h : vnoAux o false fuel t c = .ok l) :
    (l.map (fun q => toRat q.2 • v.value q.1)).sum = toRat c • v.value t := by
  have hidx := vnoAux_idx fuel t c l hp h
  have hS : ∀ q ∈ l, q.1.allIdx.toFinset = t.allIdx.toFinset := by
    intro q hq; ext i; simpa using hidx q hq i
  have e1 : (l.map (fun q => toRat q.2 • v.value q.1)) = l.map (fun q => ∑ σ ∈ Fintype.piFinset (fun i : {i // i ∈ t.allIdx.toFinset} => v.dom i.1.space),
      toRat q.2 • v.inst (OrbSystem.ext t.allIdx.toFinset σ) q.1) := by
    apply List.map_congr_left
    intro q hq
    unfold OrbSystem.value
    rw [hS q hq, Finset.smul_sum]
  rw [e1]
  have e2 : ∀ (s : Finset ({i // i ∈ t.allIdx.toFinset} → Ω)) (l : List (STerm × Rational)) (f : STerm × Rational → ({i // i ∈ t.allIdx.toFinset} → Ω) → A),
      (l.map (fun q => ∑ σ ∈ s, f q σ)).sum = ∑ σ ∈ s, (l.map (fun q => f q σ)).sum := by
    intro s l f
    induction l with
    | nil => simp
    | cons q l ih => simp only [List.map_cons, List.sum_cons, ih, Finset.sum_add_distrib]
  rw [e2]
  unfold OrbSystem.value
  rw [Finset.smul_sum]
  apply Finset.sum_congr rfl
  intro σ hσ
  have hP : ∀ i, (∃ a ∈ t.ops, a.index = i) → OrbSystem.ext t.allIdx.toFinset σ i ∈ v.dom i.space := by
    rintro _ ⟨a, ha, rfl⟩
    have hm : a.index ∈ t.allIdx.toFinset := by
      rw [List.mem_toFinset]; exact List.mem_append_left _ (List.mem_map_of_mem ha)
    unfold OrbSystem.ext
    rw [dif_pos hm]
    exact Fintype.mem_piFinset.1 hσ ⟨_, hm⟩
  have := vnoAux_valueOn (at_ccr hv (P := fun i => ∃ a ∈ t.ops, a.index = i) (by rintro _ ⟨a, ha, rfl⟩; exact hr a ha) hP)
    (s := false) (by simp) fuel t c l (fun a ha => ⟨a, ha, rfl⟩) hc h
  rw [← at_term, ← this, listVal]
  congr 1
  apply List.map_congr_left
  intro q _
  rw [at_term]

/-- **C65 (partial: an index of both a creation and an annihilation operator occurs in a tensor)**  With the summation
convention — every index of a term is summed over the orbitals of its space — `vacuum_normal_ordered` returns an expression
with the same value, for all orbital systems with the canonical (anti)commutation relations.  Missing: terms in which an
index occurs on a creation and an annihilation operator and on no tensor, for which the property is false
(`C65_sum_lost`). -/
theorem C65_summed_value_partial {v : OrbSystem Ω R A} {o : OSI} (hv : v.CCR o) {e : Expr} (he : Ok e) (hr : e.OpsRegistered o)
    (hu : e.Unlabelled) (hp : ∀ p ∈ e, p.1.PairsCarried) :
    ∃ e', e.vacuumNormalOrdered o false = .ok e' ∧ Lin.eval v.value e' = Lin.eval v.value e := by
  obtain ⟨r', h1, _⟩ := vnoFold_spec (s := false) e [] ok_nil he.canon hr hu (by simp)
  refine ⟨r', by rw [vno_unfold hu]; exact h1, ?_⟩
  have key : ∀ (e r r' : Expr), Ok r → (∀ p ∈ e, Canon p.2) → (∀ p ∈ e, p.1.OpsRegistered o) →
    (∀ p ∈ e, p.1.normalOrdered = false) → (∀ p ∈ e, p.1.PairsCarried) → vnoFold o false e r = .ok r' →
    Lin.eval v.value r' = Lin.eval v.value r + Lin.eval v.value e := by
    intro e
    induction e with
    | nil => intro r r' _ _ _ _ _ h; cases h; rw [eval_nil, add_zero]
    | cons p e ih =>
      intro r r' hr hc hreg hfl hpc' h
      obtain ⟨l, hl, hlg⟩ := vno_term (s := false) (hreg p (List.mem_cons_self ..)) (hfl p (List.mem_cons_self ..))
      have hpc := hc p (List.mem_cons_self ..)
      have hlc : ∀ q ∈ l, Canon (Rational.mul p.2 q.2) := fun q hq => canon_mul hpc (hlg q hq).2
      obtain ⟨h1, _, _⟩ := fold_add l Prod.fst (fun q => Rational.mul p.2 q.2) hlc r hr
      rw [vnoFold_cons hl] at h
      rw [ih _ r' h1 (fun q hq => hc q (List.mem_cons_of_mem _ hq)) (fun q hq => hreg q (List.mem_cons_of_mem _ hq))
        (fun q hq => hfl q (List.mem_cons_of_mem _ hq)) (fun q hq => hpc' q (List.mem_cons_of_mem _ hq)) h,
        eval_fold_add v.value (value_congr v) l Prod.fst (fun q => Rational.mul p.2 q.2) hlc r hr, eval_cons, add_assoc]
      congr 2
      have := vno_summed hv (hreg p (List.mem_cons_self ..)) (hpc' p (List.mem_cons_self ..)) (canon_ofInt 1) hl
      rw [toRat_ofInt] at this
      simp only [Int.cast_one, one_smul] at this
      rw [← this, List.smul_sum, List.map_map]
      congr 1; apply List.map_congr_left; intro q _
      simp only [Function.comp, toRat_mul, mul_smul]
  rw [key e [] r' ok_nil he.canon hr hu hp h1, eval_nil, zero_add]

/-- `a(i) a+(i)` without tensors -/
def loneLoop (i : Index) : STerm := ⟨false, [⟨.annihilation, i⟩, ⟨.creation, i⟩], []⟩

/-- **C65**, negation: the expression `a(o0) a+(o0)` stands for `Σ_x a_x a†_x`; `vacuum_normal_ordered` returns
`1 - a+(o0) a(o0)`, which loses the sum: the values differ by the number of orbitals minus one. -/
theorem C65_sum_lost {v : OrbSystem Ω R A} (hv : v.CCR oneFermion) :
    ∃ e', Expr.vacuumNormalOrdered oneFermion false [(loneLoop ⟨0, 0⟩, Rational.ofInt 1)] = .ok e' ∧
      Lin.eval v.value [(loneLoop ⟨0, 0⟩, Rational.ofInt 1)] = Lin.eval v.value e' + (((v.dom 0).card : ℤ) - 1 : ℤ) • (1 : A) := by
  refine ⟨[(⟨false, [], []⟩, Rational.ofInt 1), (⟨false, [⟨.creation, ⟨0, 0⟩⟩, ⟨.annihilation, ⟨0, 0⟩⟩], []⟩, Rational.ofInt (-1))], by decide +kernel, ?_⟩
  have hreg : RegisteredSpace oneFermion 0 := by constructor <;> decide
  have hone : ∀ f : (Index → Ω) → A, (∀ σ σ' : Index → Ω, σ ⟨0, 0⟩ = σ' ⟨0, 0⟩ → f σ = f σ') →
      ∑ σ ∈ Fintype.piFinset (fun i : {i // i ∈ ({⟨0, 0⟩} : Finset Index)} => v.dom i.1.space), f (OrbSystem.ext {⟨0, 0⟩} σ) =
        ∑ x ∈ v.dom 0, f (fun _ => x) := by
    intro f hf
    refine Finset.sum_bij' (fun σ _ => σ ⟨⟨0, 0⟩, by simp⟩) (fun x _ => fun _ => x) ?_ ?_ ?_ ?_ ?_
    · intro σ hσ
      exact Fintype.mem_piFinset.1 hσ ⟨⟨0, 0⟩, by simp⟩
    · intro x hx
      rw [Fintype.mem_piFinset]
      rintro ⟨i, hi⟩
      rw [Finset.mem_singleton] at hi; subst hi; exact hx
    · intro σ _
      funext ⟨i, hi⟩
      have := Finset.mem_singleton.1 hi; subst this; rfl
    · intro x _; rfl
    · intro σ _
      apply hf
      unfold OrbSystem.ext
      rw [dif_pos (by simp)]
  have v1 : v.value (loneLoop ⟨0, 0⟩) = ∑ x ∈ v.dom 0, v.op .annihilation x * v.op .creation x := by
    have := hone (fun σ => v.inst σ (loneLoop ⟨0, 0⟩)) (by intro σ σ' h; simp [OrbSystem.inst, loneLoop, h])
    unfold OrbSystem.value
    rw [show (loneLoop ⟨0, 0⟩).allIdx.toFinset = {⟨0, 0⟩} by decide, this]
    simp [OrbSystem.inst, loneLoop]
  have v2 : v.value ⟨false, [⟨.creation, ⟨0, 0⟩⟩, ⟨.annihilation, ⟨0, 0⟩⟩], []⟩ = ∑ x ∈ v.dom 0, v.op .creation x * v.op .annihilation x := by
    have := hone (fun σ => v.inst σ ⟨false, [⟨.creation, ⟨0, 0⟩⟩, ⟨.annihilation, ⟨0, 0⟩⟩], []⟩) (by intro σ σ' h; simp [OrbSystem.inst, h])
    unfold OrbSystem.value
    rw [show (STerm.allIdx ⟨false, [⟨.creation, ⟨0, 0⟩⟩, ⟨.annihilation, ⟨0, 0⟩⟩], []⟩).toFinset = {⟨0, 0⟩} by decide, this]
    simp [OrbSystem.inst]
  have v3 : v.value ⟨false, [], []⟩ = 1 := by
    unfold OrbSystem.value
    simp only [OrbSystem.inst, List.map_nil, List.prod_nil, one_smul, Finset.sum_const, Fintype.card_piFinset]
    have : IsEmpty {i // i ∈ (STerm.allIdx ⟨false, [], []⟩).toFinset} := ⟨fun i => by simpa [STerm.allIdx] using i.2⟩
    rw [Fintype.prod_empty, one_smul]
  have hx : ∀ x ∈ v.dom 0, v.op .annihilation x * v.op .creation x = -(v.op .creation x * v.op .annihilation x) + 1 := by
    intro x hx
    have := hv.mixed 0 0 hreg hreg x hx x hx
    rw [if_pos rfl, show spaceSign oneFermion 0 0 = -1 by decide +kernel] at this
    simpa using this
  simp only [Lin.eval, List.map_cons, List.map_nil, List.sum_cons, List.sum_nil, v1, v2, v3, toRat_ofInt]
  rw [Finset.sum_congr rfl hx, Finset.sum_add_distrib, Finset.sum_neg_distrib, Finset.sum_const]
  simp [sub_smul]
  abel

end

/-! ### non-vacuity -/

/-- two orbitals in one fermionic space, in the Fock space of `jwOp` -/
def jwTwo : OrbSystem Bool ℚ (Matrix (Fin 4) (Fin 4) ℚ) :=
  ⟨fun s => if s = 0 then {true, false} else ∅, fun lab l u => if lab = "delta".toList ∧ l ≠ u then 0 else 1, Wick.jwOp⟩

theorem jwTwo_ccr : jwTwo.CCR oneFermion := by
  have h0 : ∀ s, RegisteredSpace oneFermion s → s = 0 := by
    intro s h
    have h1 := h.1; have h2 := h.2
    simp [oneFermion] at h2; omega
  have hsg : spaceSign oneFermion 0 0 = -1 := by decide +kernel
  refine ⟨?_, ?_, ?_, ?_⟩
  · intro s s' hs hs' x _ y _ k
    rw [h0 s hs, h0 s' hs', hsg]
    cases k <;> cases x <;> cases y <;> decide +kernel
  · intro s s' hs hs' x _ y _
    rw [h0 s hs, h0 s' hs', hsg]
    cases x <;> cases y <;> decide +kernel
  · intro s s' hs hs' h
    exact absurd ((h0 s hs).trans (h0 s' hs').symm) h
  · intro x y
    cases x <;> cases y <;> decide +kernel

-- the sum is really lost
example : ∃ e', Expr.vacuumNormalOrdered oneFermion false [(loneLoop ⟨0, 0⟩, Rational.ofInt 1)] = .ok e' ∧
    Lin.eval jwTwo.value e' ≠ Lin.eval jwTwo.value [(loneLoop ⟨0, 0⟩, Rational.ofInt 1)] := by
  obtain ⟨e', h1, h2⟩ := C65_sum_lost jwTwo_ccr
  refine ⟨e', h1, fun h => ?_⟩
  rw [← h] at h2
  have h3 : ((((jwTwo.dom 0).card : ℤ) - 1 : ℤ) • (1 : Matrix (Fin 4) (Fin 4) ℚ)) = 0 := by
    have := h2.symm
    simpa using this
  have h4 := congrFun (congrFun h3 0) 0
  revert h4
  decide +kernel

/-- `1/2 f^{o0}_{o1} a(o0) a(o2) a+(o2) a+(o1) g^{o2}`: indices of tensors -/
def c65Example : Expr := [(⟨false, [⟨.annihilation, ⟨0, 0⟩⟩, ⟨.annihilation, ⟨0, 2⟩⟩, ⟨.creation, ⟨0, 2⟩⟩, ⟨.creation, ⟨0, 1⟩⟩],
  [⟨"f".toList, [⟨0, 1⟩], [⟨0, 0⟩], .antisymmetric, false⟩, ⟨"g".toList, [], [⟨0, 2⟩], .antisymmetric, false⟩]⟩, ⟨1, 2⟩)]

example : ∃ e', c65Example.vacuumNormalOrdered oneFermion false = .ok e' ∧ e'.length = 7 ∧
    Lin.eval jwTwo.value e' = Lin.eval jwTwo.value c65Example := by
  obtain ⟨e', h1, h2⟩ := C65_summed_value_partial jwTwo_ccr (e := c65Example) ⟨by simp [c65Example, Sorted], by decide +kernel⟩
    (by simp [Expr.OpsRegistered, STerm.OpsRegistered, c65Example, Index.Registered, oneFermion]) (by intro p hp; revert p; decide)
    (by intro p hp a ha b hb; revert a b; revert p; unfold c65Example; decide)
  refine ⟨e', h1, ?_, h2⟩
  have : (c65Example.vacuumNormalOrdered oneFermion false).toOption.map List.length = some 7 := by decide +kernel
  rw [h1] at this
  simpa [Except.toOption] using this

end Wicked
