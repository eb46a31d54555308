import Verif.Spec.CoupledCluster
import Verif.Proofs.CoupledCluster
import Verif.Props.Projection
import Verif.Props.BchEnd
import Verif.Props.Amplitudes
/-! # C85: the coupled-cluster equations -/
namespace Wicked
open CppLt CppEq Rational Lin
namespace Wick
section
variable {Ω R B : Type} [Inhabited Ω] [DecidableEq Ω] [CommRing R] [Ring B] [Algebra R B] [Algebra ℚ B]

/-- the value as a homomorphism from the free algebra -/
noncomputable def valHom (v : OrbSystem Ω R B) (hole : Ω → Bool) (ns : Nat) : OpAlg →ₐ[ℚ] B :=
  MonoidAlgebra.lift ℚ _ _ (FreeMonoid.lift (v.opValue hole ns))

omit [DecidableEq Ω] in
theorem valHom_word (v : OrbSystem Ω R B) (hole : Ω → Bool) (ns : Nat) (w : OperatorProduct) : valHom v hole ns (wordVal w) = (w.map (v.opValue hole ns)).prod := by
  unfold valHom wordVal
  rw [MonoidAlgebra.lift_single, one_smul, FreeMonoid.lift_apply]
  rfl

omit [DecidableEq Ω] in
theorem valHom_expr (v : OrbSystem Ω R B) (hole : Ω → Bool) (ns : Nat) (E : OpExpr) : valHom v hole ns (opVal E) = v.exprValue hole ns E := by
  unfold opVal Lin.eval OrbSystem.exprValue
  rw [map_list_sum, List.map_map]
  congr 1
  apply List.map_congr_left
  intro q _
  rw [Function.comp, map_smul, valHom_word]

theorem hom_nested (h : OpAlg →ₐ[ℚ] B) (a b : OpAlg) (k : Nat) : h (nested a b k) = (adR R (h b) ^ k) (h a) := by
  induction k with
  | zero => rfl
  | succ k ih => rw [nested, map_sub, map_mul, map_mul, ih, pow_succ', Module.End.mul_apply, adR_apply]

theorem opSlots_numOps {ns : Nat} (h8 : ns ≤ 8) {p : Operator} (hv : p.Valid ns) : ((opSlots ns 0 p).length : Int) = p.numOps := by
  have h := length_slots (ns := ns) (ops := [p]) (by simpa using hv)
  have e1 : slots ns [p] = opSlots ns 0 p := by simp [slots, slotsFrom]
  rw [e1] at h
  rw [h]
  unfold totalOps
  rw [map_range_opAt [p] (fun p => ((List.range ns).map (fun s => p.gm.cre s + p.gm.ann s)).sum)]
  have := numOps_range h8 p.gm (fun t ht => (hv t).2.2 ht)
  simpa [Operator.numOps] using this.symm

/-- all second-quantized operators of the registered spaces that do not annihilate the vacuum -/
def modesOf (v : OrbSystem Ω R B) (hole : Ω → Bool) (ns : Nat) : Finset (SQType × Ω) :=
  (((List.range ns).toFinset.biUnion (fun s : Nat => v.dom s)).image (fun x => (if hole x then SQType.annihilation else SQType.creation, x)))

theorem modesOf_good (v : OrbSystem Ω R B) (hole : Ω → Bool) (ns : Nat) : ∀ m ∈ modesOf v hole ns, kills hole m = false := by
  intro m hm
  obtain ⟨x, _, rfl⟩ := Finset.mem_image.1 hm
  by_cases h : hole x = true
  · simp [kills, h]
  · simp [kills, h]

variable [Algebra ℚ R] [IsScalarTower ℚ R B]

omit [DecidableEq Ω] [Algebra ℚ B] in
theorem sumOver_mem {ι : Type} [DecidableEq ι] {S : Submodule R B} {I : Finset ι} {d : ι → Finset Ω} {F : (ι → Ω) → B} (h : ∀ x, (∀ i ∈ I, x i ∈ d i) → F x ∈ S) : sumOver I d F ∈ S := by
  unfold sumOver
  apply Submodule.sum_mem
  intro σ hσ
  apply h
  intro i hi
  rw [dif_pos hi]
  exact Fintype.mem_piFinset.1 hσ ⟨i, hi⟩

omit [Inhabited Ω] [DecidableEq Ω] in
theorem rat_smul_mem {S : Submodule R B} {b : B} (h : b ∈ S) (q : ℚ) : q • b ∈ S := by
  rw [← algebraMap_smul R q b]
  exact S.smul_mem _ h

theorem excitation_mem {o : OSI} (h8 : o.spaces.length ≤ 8) {v : OrbSystem Ω R B} {hole : Ω → Bool} (hvac : v.Vacuum o hole) {p : Operator} (hp : EvenOp o p) (he : IsExcitation o p) :
    v.opValue hole o.spaces.length p ∈ wordSpan R v.op (modesOf v hole o.spaces.length) 1 := by
  unfold OrbSystem.opValue
  apply rat_smul_mem
  apply sumOver_mem
  intro x hx
  apply Submodule.smul_mem
  have hmem : ∀ m ∈ (opSlots o.spaces.length 0 p).map (fun y => (y.type, x y)), m ∈ modesOf v hole o.spaces.length := by
    intro m hm
    obtain ⟨y, hy, rfl⟩ := List.mem_map.1 hm
    have hd := hx y (List.mem_toFinset.2 hy)
    obtain ⟨_, hs, hk⟩ := mem_opSlots.1 hy
    refine Finset.mem_image.2 ⟨x y, Finset.mem_biUnion.2 ⟨y.space, by simpa using hs, hd⟩, ?_⟩
    rcases hvac.kind y.space hs with ⟨ht, hh⟩ | ⟨ht, hh⟩
    · have hc : y.cre = false := by
        by_contra hc
        rw [Bool.not_eq_false] at hc
        rw [if_pos hc] at hk
        have := he.cre y.space (by omega)
        rw [ht] at this; cases this
      simp [Slot.type, hc, hh _ hd]
    · have hc : y.cre = true := by
        by_contra hc
        rw [if_neg hc] at hk
        have := he.ann y.space (by omega)
        rw [ht] at this; cases this
      simp [Slot.type, hc, hh _ hd]
  rw [normalProd_good (fun m hm => modesOf_good v hole _ m (hmem m hm))]
  have hlen := opSlots_numOps h8 hp.valid
  refine Submodule.subset_span ⟨_, hmem, ?_, ?_, rfl⟩
  · rw [List.length_map, Nat.even_iff]
    have := hp.even
    omega
  · rw [List.length_map]
    have := he.some
    omega

theorem expr_mem {o : OSI} (h8 : o.spaces.length ≤ 8) {v : OrbSystem Ω R B} {hole : Ω → Bool} (hvac : v.Vacuum o hole) {T : OpExpr} (hne : ∀ q ∈ T, q.1 ≠ [])
    (hT : ∀ x, OpsOf T x → EvenOp o x ∧ IsExcitation o x) : v.exprValue hole o.spaces.length T ∈ wordSpan R v.op (modesOf v hole o.spaces.length) 1 := by
  unfold OrbSystem.exprValue
  apply list_sum_mem
  intro b hb
  obtain ⟨q, hq, rfl⟩ := List.mem_map.1 hb
  apply rat_smul_mem
  have key : ∀ l : OperatorProduct, (∀ x ∈ l, EvenOp o x ∧ IsExcitation o x) → (l.map (v.opValue hole o.spaces.length)).prod ∈ wordSpan R v.op (modesOf v hole o.spaces.length) l.length := by
    intro l hl
    induction l with
    | nil => exact Submodule.subset_span ⟨[], by simp, by simp, le_refl _, rfl⟩
    | cons x l ih =>
      rw [List.map_cons, List.prod_cons, List.length_cons, add_comm]
      exact wordSpan_mul (excitation_mem h8 hvac (hl x (by simp)).1 (hl x (by simp)).2) (ih (fun y hy => hl y (by simp [hy])))
  exact wordSpan_mono (List.length_pos_iff.2 (hne q hq)) (key q.1 (fun x hx => hT x ⟨q, hq, hx⟩))

theorem opValue_kernel {o : OSI} (h8 : o.spaces.length ≤ 8) {v : OrbSystem Ω R B} {hole : Ω → Bool} (hcar : IsCAR v.op) {t : B} (ht : t ∈ wordSpan R v.op (modesOf v hole o.spaces.length) 1)
    {p : Operator} (hp : p.Valid o.spaces.length) : (adR R t ^ (p.numOps.toNat + 1)) (v.opValue hole o.spaces.length p) = 0 := by
  rw [← LinearMap.mem_ker]
  unfold OrbSystem.opValue
  apply rat_smul_mem
  apply sumOver_mem
  intro x _
  apply Submodule.smul_mem
  rw [LinearMap.mem_ker]
  have hlen := opSlots_numOps h8 hp
  have := normalProd_kernel (R := R) hcar (modesOf_good v hole o.spaces.length) ht ((opSlots o.spaces.length 0 p).map (fun y => (y.type, x y)))
  rw [List.length_map] at this
  rw [show p.numOps.toNat = (opSlots o.spaces.length 0 p).length by omega]
  exact this

theorem expr_kernel {o : OSI} (h8 : o.spaces.length ≤ 8) {v : OrbSystem Ω R B} {hole : Ω → Bool} (hcar : IsCAR v.op) {t : B} (ht : t ∈ wordSpan R v.op (modesOf v hole o.spaces.length) 1)
    {H : OpExpr} (hH : ∀ x, OpsOf H x → x.Valid o.spaces.length) {N : Nat} (hN : AtMostOps N H) : (adR R t ^ (N + 1)) (v.exprValue hole o.spaces.length H) = 0 := by
  rw [← LinearMap.mem_ker]
  unfold OrbSystem.exprValue
  apply list_sum_mem
  intro b hb
  obtain ⟨q, hq, rfl⟩ := List.mem_map.1 hb
  apply rat_smul_mem
  rw [LinearMap.mem_ker]
  have key : ∀ l : OperatorProduct, (∀ x ∈ l, x.Valid o.spaces.length) → ∀ n : Nat, ((l.map Operator.numOps).sum : Int) ≤ n →
      (adR R t ^ (n + 1)) (l.map (v.opValue hole o.spaces.length)).prod = 0 := by
    intro l
    induction l with
    | nil =>
      intro _ n _
      rw [List.map_nil, List.prod_nil]
      exact adR_pow_le (n := 1) (by rw [pow_one, adR_one]) (by omega)
    | cons x l ih =>
      intro hl n hn
      have h0 := numOps_nonneg x.gm (fun s => ⟨(hl x (by simp) s).1, (hl x (by simp) s).2.1⟩)
      have hx0 : 0 ≤ x.numOps := h0
      rw [List.map_cons, List.sum_cons] at hn
      have hl0 : 0 ≤ (l.map Operator.numOps).sum := List.sum_nonneg (by
        intro z hz
        obtain ⟨y, hy, rfl⟩ := List.mem_map.1 hz
        exact numOps_nonneg y.gm (fun s => ⟨(hl y (by simp [hy]) s).1, (hl y (by simp [hy]) s).2.1⟩))
      rw [List.map_cons, List.prod_cons]
      exact adR_kernel t n x.numOps.toNat (n - x.numOps.toNat) _ _ (by omega) (opValue_kernel h8 hcar ht (hl x (by simp)))
        (ih (fun y hy => hl y (by simp [hy])) _ (by omega))
  exact key q.1 (fun x hx => hH x ⟨q, hq, hx⟩) N (hN q hq)

/-- **C85**, similarity transformation: for an excitation operator `T` and an `H` whose products have at most `N` second-quantized operators, the value of `bch_series(H, T, n)` is for all `n ≥ N`
exactly `exp(-T) H exp(T)` (the exponential series end, `T` is nilpotent), in every algebra with the canonical anticommutation relations and for all tensors. -/
theorem C85_similarity {o : OSI} (h8 : o.spaces.length ≤ 8) {v : OrbSystem Ω R B} {hole : Ω → Bool} (hcar : IsCAR v.op) (hvac : v.Vacuum o hole)
    {H T : OpExpr} (hH : Built H) (hT : Built T) {N : Nat} (hN : AtMostOps N H) (hHx : ∀ x, OpsOf H x → x.Valid o.spaces.length)
    (hne : ∀ q ∈ T, q.1 ≠ []) (hTx : ∀ x, OpsOf T x → EvenOp o x ∧ IsExcitation o x) {n : Int} (hn : (N : Int) ≤ n) :
    IsNilpotent (v.exprValue hole o.spaces.length T) ∧
    v.exprValue hole o.spaces.length (OpExpr.bchSeries H T n) =
      IsNilpotent.exp (-v.exprValue hole o.spaces.length T) * v.exprValue hole o.spaces.length H * IsNilpotent.exp (v.exprValue hole o.spaces.length T) := by
  have hmem := expr_mem (R := R) h8 hvac hne hTx
  have hnil := excitation_nilpotent hcar (modesOf_good v hole _) hmem
  refine ⟨hnil, ?_⟩
  have hker := adR_pow_le (m := n.toNat + 1) (expr_kernel (R := R) h8 hcar hmem hHx hN) (by omega)
  rw [exp_conj hnil hker, ← valHom_expr, (C24_bch_series hH hT n).1, map_sum]
  apply Finset.sum_congr rfl
  intro k _
  rw [map_smul, hom_nested (R := R), valHom_expr, valHom_expr, one_div]

omit [Inhabited Ω] [DecidableEq Ω] [CommRing R] [Ring B] [Algebra R B] [Algebra ℚ B] [Algebra ℚ R] [IsScalarTower ℚ R B] in
theorem opAt_mem_ops {ops : OperatorProduct} {i : Nat} (h : i < ops.length) : opAt ops i ∈ ops := by
  unfold opAt
  rw [List.getD_eq_getElem?_getD, List.getElem?_eq_getElem h]
  exact List.getElem_mem h

omit [Inhabited Ω] [DecidableEq Ω] [CommRing R] [Ring B] [Algebra R B] [Algebra ℚ B] [Algebra ℚ R] [IsScalarTower ℚ R B] in
/-- one- and two-body operators and excitation operators of any rank: no three alike contractions are possible -/
theorem noTriples_excitations {o : OSI} {ops : OperatorProduct} (h : ∀ x ∈ ops, (∀ s, x.gm.cre s ≤ 2 ∧ x.gm.ann s ≤ 2) ∨ IsExcitation o x) : NoTriples o ops := by
  intro i j s hi hj _ hc ha
  exfalso
  rcases h _ (opAt_mem_ops hi) with h1 | h1
  · have := (h1 s).1; omega
  rcases h _ (opAt_mem_ops hj) with h2 | h2
  · have := (h2 s).2; omega
  have e1 := h1.cre s (by omega)
  have e2 := h2.ann s (by omega)
  rw [e1] at e2
  cases e2

omit [Inhabited Ω] [DecidableEq Ω] [CommRing R] [Ring B] [Algebra R B] [Algebra ℚ B] [Algebra ℚ R] [IsScalarTower ℚ R B] in
theorem ccInput_bch {o : OSI} {H T : OpExpr} {N : Nat} (h : CCInput o H T N) (n : Int) :
    (∀ q ∈ OpExpr.bchSeries H T n, q.1 ≠ [] ∧ Canon q.2 ∧ ∀ p ∈ q.1, p.Valid o.spaces.length ∧ ∀ c ∈ p.label, isWord c = true) ∧ ∀ q ∈ OpExpr.bchSeries H T n, NoTriples o q.1 := by
  have hall := mem_bch (H := H) (T := T) (Q := fun l => l ≠ [] ∧ ∀ x ∈ l, (x.Valid o.spaces.length ∧ ∀ c ∈ x.label, isWord c = true) ∧ ((∀ s, x.gm.cre s ≤ 2 ∧ x.gm.ann s ≤ 2) ∨ IsExcitation o x))
    (fun q hq => ⟨h.neH q hq, fun x hx => ⟨⟨h.validH x ⟨q, hq, hx⟩, h.label x (.inl ⟨q, hq, hx⟩)⟩, .inl (h.two x ⟨q, hq, hx⟩)⟩⟩)
    (fun q hq l hl => by
      have hx : ∀ x ∈ q.1, (x.Valid o.spaces.length ∧ ∀ c ∈ x.label, isWord c = true) ∧ ((∀ s, x.gm.cre s ≤ 2 ∧ x.gm.ann s ≤ 2) ∨ IsExcitation o x) :=
        fun x hx => ⟨⟨(h.excT x ⟨q, hq, hx⟩).1.valid, h.label x (.inr ⟨q, hq, hx⟩)⟩, .inr (h.excT x ⟨q, hq, hx⟩).2⟩
      refine ⟨⟨by simp [hl.1], fun x hm => ?_⟩, ⟨by simp [hl.1], fun x hm => ?_⟩⟩
      · rcases List.mem_append.1 hm with hm | hm
        exacts [hl.2 x hm, hx x hm]
      · rcases List.mem_append.1 hm with hm | hm
        exacts [hx x hm, hl.2 x hm]) n
  refine ⟨fun q hq => ⟨(hall q hq).1, (built_wf (built_bch h.builtH h.builtT n)).toOk.canon q hq, fun p hp => ((hall q hq).2 p hp).1⟩,
    fun q hq => noTriples_excitations (fun x hx => ((hall q hq).2 x hx).2)⟩

/-- **C85**, the equations: the functions that `generate_equation` makes from `contract(bch_series(H, T, n), minr, maxr)` return, antisymmetrised, the matrix elements of
`exp(-T) H exp(T)` between the vacuum and the excited determinants: these are the coupled-cluster residuals, and for `n = k = 0` the coupled-cluster energy.
If there is no function for a number of indices, the matrix elements are zero. Missing: coefficients that are no multiples of `10^-9`, and Hamiltonians with more than two-body operators. -/
theorem C85_residual_partial (hist : List RegOp) {fmt : Rational → Str} {cfg : WickCfg} {H T : OpExpr} {N : Nat} {ord : Int} {minr maxr : Int} {e : Expr} :
    let o := runReg OSI.empty hist
    (∀ s ∈ o.spaces, ∀ name ∈ s.indices, ∀ (c : Char) (n : Int), name ≠ c :: '_' :: '{' :: (intStr n ++ ['}'])) →
    (∀ s ∈ o.spaces, isAlpha s.label = true) → PrintsNine fmt → (∃ s ∈ o.spaces, s.label = 'o') → (∃ s ∈ o.spaces, s.label = 'v') →
    o.spaces.length ≤ 8 → CCInput o H T N → (N : Int) ≤ ord →
    contractExpr o cfg (Rational.ofInt 1) (OpExpr.bchSeries H T ord) minr maxr = .ok e → (∀ p ∈ e, p.1.allIdx.toFinset.card ≤ 52 ∧ p.2.den ∣ 10 ^ 9) →
    (∀ p ∈ e, ∀ y ∈ p.1.tensors, y.label = ['H'] ∨ y.label = ['T']) →
    ∀ (v : OrbSystem Ω R B) (arr : Str → Str → List Ω → R) (dom : Char → Finset Ω) (hole : Ω → Bool) (φ : B →ₗ[R] R), v.Antisymmetric → IsCAR v.op → v.Vacuum o hole →
    IsVacuumExpectation v.op hole φ →
    (∀ p ∈ e, ∀ y ∈ p.1.tensors, ∀ l u, l.length = y.lower.length → u.length = y.upper.length → arr y.label (spaceText o y) (u ++ l) = v.T y.label l u) →
    (∀ (n : Nat) s, o.spaces[n]? = some s → dom s.label = v.dom n) →
    ∃ m, e.toManybody o ['R'] = .ok m ∧ ∀ n k : Nat, minr ≤ n + k → n + k ≤ maxr →
      (∃ text r, generateEquation o fmt m n k = .ok text ∧
        ReturnsArray arr dom text ("evaluate_residual_".toList ++ natStr n ++ "_".toList ++ natStr k)
          (if n + k = 0 then none else some (List.replicate n "nocc".toList ++ List.replicate k "nvir".toList)) r ∧
        ∀ u l : List Ω, u.length = n → l.length = k → (∀ x ∈ u, x ∈ dom 'o' ∧ hole x = true) → (∀ x ∈ l, x ∈ dom 'v' ∧ hole x = false) →
          φ (bra v.op u l * (IsNilpotent.exp (-v.exprValue hole o.spaces.length T) * v.exprValue hole o.spaces.length H * IsNilpotent.exp (v.exprValue hole o.spaces.length T))) =
            antisymmetrizer 0 n (antisymmetrizer n k r) (u ++ l)) ∨
      (generateEquation o fmt m n k = .error .throw ∧
        ∀ u l : List Ω, u.length = n → l.length = k → (∀ x ∈ u, x ∈ dom 'o' ∧ hole x = true) → (∀ x ∈ l, x ∈ dom 'v' ∧ hole x = false) →
          φ (bra v.op u l * (IsNilpotent.exp (-v.exprValue hole o.spaces.length T) * v.exprValue hole o.spaces.length H * IsNilpotent.exp (v.exprValue hole o.spaces.length T))) = 0) := by
  intro o hgen hal hfmt ho hvv h8 hin hN hc hb hHT v arr dom hole φ hv hcar hvac hφ harr hdom
  obtain ⟨hE, h3⟩ := ccInput_bch hin ord
  have hval := (C85_similarity (R := R) h8 hcar hvac hin.builtH hin.builtT hin.size hin.validH hin.neT hin.excT hN).2
  have hone : toRat (Rational.ofInt 1) = 1 := by norm_num [toRat, Rational.ofInt]
  have h := C84_residual_partial hist hgen hal hfmt ho hvv h8 hE (canon_ofInt 1) hc hb h3 hHT v arr dom hole φ hv hcar hvac hφ harr hdom
  rw [← hval]
  simp only [hone, one_smul] at h
  exact h

/-- **C85**, the error of the equations: without any hypothesis on the denominators (the triples equations have coefficients `1/12` and `1/36`), for arrays of numbers with an absolute value: the antisymmetrised arrays of the generated
functions differ from the matrix elements of `exp(-T) H exp(T)` by at most `10^-9` times the sum of the absolute values of the matrix elements of the terms of the result of `contract`. Missing: Hamiltonians with more than two-body operators. -/
theorem C85_residual_error_partial {S : Type} [Field S] [LinearOrder S] [IsStrictOrderedRing S] (abv : AbsoluteValue R S)
    (habv : ∀ c : ℚ, abv (algebraMap ℚ R c) = ((|c| : ℚ) : S)) (hist : List RegOp) {fmt : Rational → Str} {cfg : WickCfg} {H T : OpExpr} {N : Nat} {ord : Int} {minr maxr : Int} {e : Expr} :
    let o := runReg OSI.empty hist
    (∀ s ∈ o.spaces, ∀ name ∈ s.indices, ∀ (c : Char) (n : Int), name ≠ c :: '_' :: '{' :: (intStr n ++ ['}'])) →
    (∀ s ∈ o.spaces, isAlpha s.label = true) → PrintsNine fmt → (∃ s ∈ o.spaces, s.label = 'o') → (∃ s ∈ o.spaces, s.label = 'v') →
    o.spaces.length ≤ 8 → CCInput o H T N → (N : Int) ≤ ord →
    contractExpr o cfg (Rational.ofInt 1) (OpExpr.bchSeries H T ord) minr maxr = .ok e → (∀ p ∈ e, p.1.allIdx.toFinset.card ≤ 52) →
    (∀ p ∈ e, ∀ y ∈ p.1.tensors, y.label = ['H'] ∨ y.label = ['T']) →
    ∀ (v : OrbSystem Ω R B) (arr : Str → Str → List Ω → R) (dom : Char → Finset Ω) (hole : Ω → Bool) (φ : B →ₗ[R] R), v.Antisymmetric → IsCAR v.op → v.Vacuum o hole →
    IsVacuumExpectation v.op hole φ →
    (∀ p ∈ e, ∀ y ∈ p.1.tensors, ∀ l u, l.length = y.lower.length → u.length = y.upper.length → arr y.label (spaceText o y) (u ++ l) = v.T y.label l u) →
    (∀ (n : Nat) s, o.spaces[n]? = some s → dom s.label = v.dom n) →
    ∃ m, e.toManybody o ['R'] = .ok m ∧ ∀ n k : Nat, minr ≤ n + k → n + k ≤ maxr →
      (∃ text r, generateEquation o fmt m n k = .ok text ∧
        ReturnsArray arr dom text ("evaluate_residual_".toList ++ natStr n ++ "_".toList ++ natStr k)
          (if n + k = 0 then none else some (List.replicate n "nocc".toList ++ List.replicate k "nvir".toList)) r ∧
        ∀ u l : List Ω, u.length = n → l.length = k → (∀ x ∈ u, x ∈ dom 'o' ∧ hole x = true) → (∀ x ∈ l, x ∈ dom 'v' ∧ hole x = false) →
          abv (antisymmetrizer 0 n (antisymmetrizer n k r) (u ++ l) -
              φ (bra v.op u l * (IsNilpotent.exp (-v.exprValue hole o.spaces.length T) * v.exprValue hole o.spaces.length H * IsNilpotent.exp (v.exprValue hole o.spaces.length T)))) ≤
            1 / 10 ^ 9 * (e.map (fun p => abv (φ (bra v.op u l * v.normalValue hole p.1)))).sum) ∨
      (generateEquation o fmt m n k = .error .throw ∧
        ∀ u l : List Ω, u.length = n → l.length = k → (∀ x ∈ u, x ∈ dom 'o' ∧ hole x = true) → (∀ x ∈ l, x ∈ dom 'v' ∧ hole x = false) →
          φ (bra v.op u l * (IsNilpotent.exp (-v.exprValue hole o.spaces.length T) * v.exprValue hole o.spaces.length H * IsNilpotent.exp (v.exprValue hole o.spaces.length T))) = 0) := by
  intro o hgen hal hfmt ho hvv h8 hin hN hc hb hHT v arr dom hole φ hv hcar hvac hφ harr hdom
  obtain ⟨hE, h3⟩ := ccInput_bch hin ord
  have hval := (C85_similarity (R := R) h8 hcar hvac hin.builtH hin.builtT hin.size hin.validH hin.neT hin.excT hN).2
  have hone : toRat (Rational.ofInt 1) = 1 := by norm_num [toRat, Rational.ofInt]
  have h := C84_residual_error_partial abv habv hist hgen hal hfmt ho hvv h8 hE (canon_ofInt 1) hc hb h3 hHT v arr dom hole φ hv hcar hvac hφ harr hdom
  rw [← hval]
  simp only [hone, one_smul] at h
  exact h
end

section
variable {Ω R B : Type} [Inhabited Ω] [DecidableEq Ω] [Field R] [Ring B] [Algebra R B] [Algebra ℚ B] [Algebra ℚ R] [IsScalarTower ℚ R B]

theorem tuples_of_positions {s : Finset Ω} {k : Nat} {at' : Nat → Ω} (h : ∀ x, x ∈ s ↔ ∃ i < k, at' i = x) {n : Nat} {u : List Ω} (hu : u.length = n) (hs : ∀ x ∈ u, x ∈ s) :
    ∃ I, Within (List.replicate n k) I ∧ I.map at' = u := by
  subst hu
  induction u with
  | nil => exact ⟨[], .nil, rfl⟩
  | cons x u ih =>
    obtain ⟨i, hi, rfl⟩ := (h x).1 (hs x (by simp))
    obtain ⟨I, hI, e⟩ := ih (fun y hy => hs y (by simp [hy]))
    exact ⟨i :: I, .cons hi hI, by rw [List.map_cons, e]⟩

theorem positions_within {k n : Nat} {I : List Nat} (h : Within (List.replicate n k) I) : I.length = n ∧ ∀ i ∈ I, i < k := by
  have hl : I.length = n := by have := h.length_eq; simpa using this
  refine ⟨hl, fun i hi => ?_⟩
  obtain ⟨x, hx, hr⟩ := forall₂_left' h i hi
  rw [(List.mem_replicate.1 hx).2] at hr
  exact hr

/-- **C85**, convergence: the orbitals of `o` and `v` stand at the positions `0, 1, ...` of the axes, the residual blocks `R` up to a rank are the antisymmetrised arrays
that the generated functions return, no excitation energy is zero. Then `update_cc_amplitudes` leaves the block of rank `n` unchanged iff the coupled-cluster equations
of rank `n` hold: all matrix elements of `exp(-T) H exp(T)` between the vacuum and the determinants with `n` excited electrons are zero. -/
theorem C85_converged_partial (hist : List RegOp) {fmt : Rational → Str} {cfg : WickCfg} {H T : OpExpr} {N : Nat} {ord : Int} {minr maxr : Int} {e : Expr} :
    let o := runReg OSI.empty hist
    (∀ s ∈ o.spaces, ∀ name ∈ s.indices, ∀ (c : Char) (n : Int), name ≠ c :: '_' :: '{' :: (intStr n ++ ['}'])) →
    (∀ s ∈ o.spaces, isAlpha s.label = true) → PrintsNine fmt → (∃ s ∈ o.spaces, s.label = 'o') → (∃ s ∈ o.spaces, s.label = 'v') →
    o.spaces.length ≤ 8 → CCInput o H T N → (N : Int) ≤ ord →
    contractExpr o cfg (Rational.ofInt 1) (OpExpr.bchSeries H T ord) minr maxr = .ok e → (∀ p ∈ e, p.1.allIdx.toFinset.card ≤ 52 ∧ p.2.den ∣ 10 ^ 9) →
    (∀ p ∈ e, ∀ y ∈ p.1.tensors, y.label = ['H'] ∨ y.label = ['T']) →
    ∀ (v : OrbSystem Ω R B) (arr : Str → Str → List Ω → R) (dom : Char → Finset Ω) (hole : Ω → Bool) (φ : B →ₗ[R] R), v.Antisymmetric → IsCAR v.op → v.Vacuum o hole →
    IsVacuumExpectation v.op hole φ →
    (∀ p ∈ e, ∀ y ∈ p.1.tensors, ∀ l u, l.length = y.lower.length → u.length = y.upper.length → arr y.label (spaceText o y) (u ++ l) = v.T y.label l u) →
    (∀ (n : Nat) s, o.spaces[n]? = some s → dom s.label = v.dom n) →
    ∀ (occ vir : Nat → Ω) (no nv : Nat), (∀ x, x ∈ dom 'o' ↔ ∃ i < no, occ i = x) → (∀ x, x ∈ dom 'v' ↔ ∃ i < nv, vir i = x) → (∀ x ∈ dom 'o', hole x = true) → (∀ x ∈ dom 'v', hole x = false) →
    ∀ m, e.toManybody o ['R'] = .ok m →
    ∀ (Hd Td Rd Dd Td' : List (Str × NdArray R)) (oo vv : NdArray R) (rank : Int), HasArray Hd "oo".toList oo → HasArray Hd "vv".toList vv → oo.shape = [no, no] → vv.shape = [nv, nv] →
    inverseDenominators Hd rank = .ok Dd → (∀ n : Nat, 1 ≤ n → n ≤ 3 → (n : Int) ≤ rank → MatchingBlocks Td Rd Dd (ampKey n 0)) → updateAmplitudes Td Rd Dd rank = .ok Td' →
    ∀ n : Nat, 1 ≤ n → (n : Int) ≤ rank → minr ≤ n + n → n + n ≤ maxr → NonzeroEnergies n no nv oo vv →
    ∀ (text : Str), generateEquation o fmt m n n = .ok text →
    ∀ (t r t' : NdArray R), HasArray Td (ampKey n 0) t → HasArray Rd (ampKey n 0) r → HasArray Td' (ampKey n 0) t' →
    (∀ result, ReturnsArray arr dom text ("evaluate_residual_".toList ++ natStr n ++ "_".toList ++ natStr n) (some (List.replicate n "nocc".toList ++ List.replicate n "nvir".toList)) result →
      ∀ I A, Within (List.replicate n no) I → Within (List.replicate n nv) A → r.elem (I ++ A) = antisymmetrizer 0 n (antisymmetrizer n n result) (I.map occ ++ A.map vir)) →
    ((∀ I A, Within (List.replicate n no) I → Within (List.replicate n nv) A → t'.elem (I ++ A) = t.elem (I ++ A)) ↔
      ∀ u l : List Ω, u.length = n → l.length = n → (∀ x ∈ u, x ∈ dom 'o') → (∀ x ∈ l, x ∈ dom 'v') →
        φ (bra v.op u l * (IsNilpotent.exp (-v.exprValue hole o.spaces.length T) * v.exprValue hole o.spaces.length H * IsNilpotent.exp (v.exprValue hole o.spaces.length T))) = 0) := by
  intro o hgen hal hfmt ho hvv h8 hin hN hc hb hHT v arr dom hole φ hv hcar hvac hφ harr hdom occ vir no nv hocc hvir hho hhv m hm
    Hd Td Rd Dd Td' oo vv rank hoo hvv' hno hnv hD hM hT' n h1 hn hmin hmax hz text hg t r t' ht hr ht' hres
  obtain ⟨m', hm', h⟩ := C85_residual_partial hist hgen hal hfmt ho hvv h8 hin hN hc hb hHT v arr dom hole φ hv hcar hvac hφ harr hdom
  rw [hm] at hm'
  injection hm' with hm'
  subst hm'
  rcases h n n hmin hmax with ⟨text', result, hg', hret, hval⟩ | ⟨hg', _⟩
  · rw [hg] at hg'
    injection hg' with hg'
    subst hg'
    rw [if_neg (by omega)] at hret
    have hres := hres result hret
    have hfix := fun I A hI hA => C83_fixed_point Hd Td Rd Dd Td' oo vv no nv hoo hvv' hno hnv rank hD hM hT' n h1 hn hz t r t' ht hr ht' I A hI hA
    constructor
    · intro hall u l hu hl hus hls
      rw [hval u l hu hl (fun x hx => ⟨hus x hx, hho x (hus x hx)⟩) (fun x hx => ⟨hls x hx, hhv x (hls x hx)⟩)]
      obtain ⟨I, hI, rfl⟩ := tuples_of_positions hocc hu hus
      obtain ⟨A, hA, rfl⟩ := tuples_of_positions hvir hl hls
      rw [← hres I A hI hA]
      exact (hfix I A hI hA).1 (hall I A hI hA)
    · intro hall I A hI hA
      rw [hfix I A hI hA, hres I A hI hA]
      have hI' := positions_within hI
      have hA' := positions_within hA
      have hus : ∀ x ∈ I.map occ, x ∈ dom 'o' := fun x hx => by
        obtain ⟨i, hi, rfl⟩ := List.mem_map.1 hx
        exact (hocc _).2 ⟨i, hI'.2 i hi, rfl⟩
      have hls : ∀ x ∈ A.map vir, x ∈ dom 'v' := fun x hx => by
        obtain ⟨i, hi, rfl⟩ := List.mem_map.1 hx
        exact (hvir _).2 ⟨i, hA'.2 i hi, rfl⟩
      rw [← hval (I.map occ) (A.map vir) (by rw [List.length_map, hI'.1]) (by rw [List.length_map, hA'.1]) (fun x hx => ⟨hus x hx, hho x (hus x hx)⟩) (fun x hx => ⟨hls x hx, hhv x (hls x hx)⟩)]
      exact hall _ _ (by rw [List.length_map, hI'.1]) (by rw [List.length_map, hA'.1]) hus hls
  · rw [hg] at hg'; cases hg'

end

section
variable {Ω R : Type} [Inhabited Ω] [DecidableEq Ω] [CommRing R] [Algebra ℚ R]

theorem runs_unique {arr : Str → Str → List Ω → R} {dom : Char → Finset Ω} : ∀ {lines : List Str} {s a b : Str → List Ω → R}, Runs arr dom lines s a → Runs arr dom lines s b → a = b
  | [], s, a, b, ha, hb => by
    have h1 : a = s := ha
    have h2 : b = s := hb
    rw [h1, h2]
  | text :: lines, s, a, b, ⟨L, f, h1, h2, h3, h4⟩, ⟨L', f', h1', h2', h3', h4'⟩ => by
    rw [h1] at h1'
    cases h1'
    rw [h3] at h3'
    cases h3'
    exact runs_unique h4 h4'

/-- a function returns one array only -/
theorem returnsArray_unique {arr : Str → Str → List Ω → R} {dom : Char → Finset Ω} {text name : Str} {dims : Option (List Str)} {a b : List Ω → R} (ha : ReturnsArray arr dom text name dims a)
    (hb : ReturnsArray arr dom text name dims b) : a = b := by
  obtain ⟨F, h1, -, -, -, -, s, h2, h3⟩ := ha
  obtain ⟨F', h1', -, -, -, -, s', h2', h3'⟩ := hb
  rw [h1] at h1'
  cases h1'
  rw [← h3, ← h3', runs_unique h2 h2']
end

/-! ## an instance: one occupied and one virtual orbital, `H = H^v_o`, `T = T^o_v` -/

def ccH : OpExpr := oneProd [mkOp "H" [(1, 0), (0, 1)]]
def ccT : OpExpr := oneProd [mkOp "T" [(0, 1), (1, 0)]]

theorem cc_input : CCInput srReg ccH ccT 2 := by
  refine ⟨oneProd_built _, oneProd_built _, fun q hq => by rw [mem_oneProd hq]; decide, fun q hq => by rw [mem_oneProd hq]; decide, fun q hq => by rw [mem_oneProd hq]; decide +kernel, ?_, ?_, ?_, ?_⟩
  · intro x hx
    have := oneProd_ops hx
    rw [List.mem_singleton] at this; subst this
    exact mkOp_valid _ _ _ (by decide) (by decide)
  · intro x hx s
    have := oneProd_ops hx
    rw [List.mem_singleton] at this; subst this
    by_cases hs : s < 8
    · interval_cases s <;> decide
    · have h1 : (mkOp "H" [(1, 0), (0, 1)]).gm.cre s = 0 := by simp [mkOp, GraphMatrix.cre, gm_get_tab, hs]
      have h2 : (mkOp "H" [(1, 0), (0, 1)]).gm.ann s = 0 := by simp [mkOp, GraphMatrix.ann, gm_get_tab, hs]
      omega
  · intro x hx
    have := oneProd_ops hx
    rw [List.mem_singleton] at this; subst this
    refine ⟨⟨mkOp_valid _ _ _ (by decide) (by decide), by decide +kernel⟩, by decide +kernel, ?_, ?_⟩
    · intro s h
      by_cases hs : s < 8
      · interval_cases s <;> first | (exact absurd rfl h) | decide +kernel | (revert h; decide +kernel)
      · exact absurd (by simp [mkOp, GraphMatrix.cre, gm_get_tab, hs]) h
    · intro s h
      by_cases hs : s < 8
      · interval_cases s <;> first | (exact absurd rfl h) | decide +kernel | (revert h; decide +kernel)
      · exact absurd (by simp [mkOp, GraphMatrix.ann, gm_get_tab, hs]) h
  · rintro x (hx | hx)
    · have := oneProd_ops hx
      rw [List.mem_singleton] at this; subst this
      decide
    · have := oneProd_ops hx
      rw [List.mem_singleton] at this; subst this
      decide

-- all hypotheses of the three theorems hold together: in the two-orbital Jordan-Wigner system, with `H` and `T` holding one block each, functions for the energy and the singles residual are generated,
-- the energy function returns the expectation value, and one update with the residual leaves the amplitude alone exactly when the projection vanishes
example : ∃ e m text0 text1 r0 r1, contractExpr srReg {} (Rational.ofInt 1) (OpExpr.bchSeries ccH ccT 2) 0 2 = .ok e ∧ e.toManybody srReg ['R'] = .ok m ∧
    generateEquation srReg (cutAt 9) m 0 0 = .ok text0 ∧ generateEquation srReg (cutAt 9) m 1 1 = .ok text1 ∧
    ReturnsArray (fun _ _ _ => (1 : ℚ)) (fun c => if c = 'o' then {true} else {false}) text0 "evaluate_residual_0_0".toList none r0 ∧
    ReturnsArray (fun _ _ _ => (1 : ℚ)) (fun c => if c = 'o' then {true} else {false}) text1 "evaluate_residual_1_1".toList (some ["nocc".toList, "nvir".toList]) r1 ∧
    jwVac (IsNilpotent.exp (-jwSys.exprValue id 2 ccT) * jwSys.exprValue id 2 ccH * IsNilpotent.exp (jwSys.exprValue id 2 ccT)) = r0 [] ∧
    ∃ D T' t', inverseDenominators [("oo".toList, ⟨[1, 1], fun _ => 0⟩), ("vv".toList, ⟨[1, 1], fun _ => (1 : ℚ)⟩)] 1 = .ok D ∧
      updateAmplitudes [("ov".toList, ⟨[1, 1], fun _ => 1⟩)] [("ov".toList, ⟨[1, 1], fun _ => r1 [true, false]⟩)] D 1 = .ok T' ∧ HasArray T' (ampKey 1 0) t' ∧
      ((∀ I A, Within [1] I → Within [1] A → t'.elem (I ++ A) = 1) ↔
        ∀ u l : List Bool, u.length = 1 → l.length = 1 → (∀ x ∈ u, x ∈ ({true} : Finset Bool)) → (∀ x ∈ l, x ∈ ({false} : Finset Bool)) →
        jwVac (bra jwOp u l * (IsNilpotent.exp (-jwSys.exprValue id 2 ccT) * jwSys.exprValue id 2 ccH * IsNilpotent.exp (jwSys.exprValue id 2 ccT))) = 0) := by
  obtain ⟨e, he, h1⟩ := ok_of_check (x := contractExpr srReg {} (Rational.ofInt 1) (OpExpr.bchSeries ccH ccT 2) 0 2) (fun e =>
    decide ((∀ p ∈ e, p.1.allIdx.toFinset.card ≤ 52 ∧ p.2.den ∣ 10 ^ 9) ∧ (∀ p ∈ e, ∀ y ∈ p.1.tensors, y.lower.length ≤ 1 ∧ y.upper.length ≤ 1) ∧
      (∀ p ∈ e, ∀ y ∈ p.1.tensors, y.label = ['H'] ∨ y.label = ['T']) ∧
      ((Expr.toManybody srReg ['R'] e).bind (fun m => generateEquation srReg (cutAt 9) m 0 0)).toOption.isSome = true ∧
      ((Expr.toManybody srReg ['R'] e).bind (fun m => generateEquation srReg (cutAt 9) m 1 1)).toOption.isSome = true)) (by decide +kernel)
  obtain ⟨hb, ht, hHT, hs0, hs1⟩ := of_decide_eq_true h1
  have hgen : ∀ s ∈ srReg.spaces, ∀ name ∈ s.indices, ∀ (c : Char) (n : Int), name ≠ c :: '_' :: '{' :: (intStr n ++ ['}']) := by
    intro s hs name hn
    have h0 : ∀ s ∈ srReg.spaces, s.indices = [] := by decide
    rw [h0 s hs] at hn
    cases hn
  have harr : ∀ p ∈ e, ∀ y ∈ p.1.tensors, ∀ (l u : List Bool), l.length = y.lower.length → u.length = y.upper.length → (1 : ℚ) = jwSys.T y.label l u := by
    intro p hp y hy l u hl hu
    have := ht p hp y hy
    show (1 : ℚ) = if l.length ≤ 1 ∧ u.length ≤ 1 then 1 else 0
    rw [if_pos ⟨by omega, by omega⟩]
  have hdom : ∀ (n : Nat) s, srReg.spaces[n]? = some s → (fun c => if c = 'o' then ({true} : Finset Bool) else {false}) s.label = jwSys.dom n := by
    intro n s hs
    match n with
    | 0 => cases hs; decide
    | 1 => cases hs; decide
    | n + 2 => cases hs
  obtain ⟨m, hm, hres⟩ := C85_residual_partial (Ω := Bool) (R := ℚ) (B := Matrix (Fin 4) (Fin 4) ℚ) srHistory (fmt := (cutAt 9)) (cfg := {}) (H := ccH) (T := ccT) (N := 2) (ord := 2) (minr := 0) (maxr := 2) (e := e)
    hgen (by decide) cut9_prints (by decide) (by decide) (by decide) cc_input (by decide) he hb hHT
    jwSys (fun _ _ _ => 1) (fun c => if c = 'o' then {true} else {false}) id jwVac jw_anti jw_car srReg_vacuum jw_expectation harr hdom
  rw [hm] at hs0 hs1
  rcases hres 0 0 (by decide) (by decide) with ⟨text0, r0, hg0, hr0, hp0⟩ | ⟨hg, _⟩
  swap
  · have : (generateEquation srReg (cutAt 9) m 0 0).toOption.isSome = true := hs0
    rw [hg] at this
    cases this
  rcases hres 1 1 (by decide) (by decide) with ⟨text1, r1, hg1, hr1, hp1⟩ | ⟨hg, _⟩
  swap
  · have : (generateEquation srReg (cutAt 9) m 1 1).toOption.isSome = true := hs1
    rw [hg] at this
    cases this
  refine ⟨e, m, text0, text1, r0, r1, he, hm, hg0, hg1, hr0, hr1, ?_, ?_⟩
  · have := hp0 [] [] rfl rfl (by simp) (by simp)
    have e2 : antisymmetrizer 0 0 (antisymmetrizer 0 0 r0) ([] ++ []) = r0 [] := by simp [antisymmetrizer, permuted]
    rw [e2] at this
    rw [← this]
    have e3 : bra jwSys.op [] [] = (1 : Matrix (Fin 4) (Fin 4) ℚ) := by simp [bra]
    rw [e3, one_mul]
    rfl
  · obtain ⟨D, hD, hDX⟩ := C83_denominators (S := ℚ) [("oo".toList, ⟨[1, 1], fun _ => 0⟩), ("vv".toList, ⟨[1, 1], fun _ => (1 : ℚ)⟩)] ⟨[1, 1], fun _ => 0⟩ ⟨[1, 1], fun _ => 1⟩ 1 1 rfl rfl rfl rfl 1 (by decide)
    obtain ⟨X, hX, hXi⟩ := hDX 1 (by decide) (by decide)
    have hM : ∀ n : Nat, 1 ≤ n → n ≤ 3 → (n : Int) ≤ 1 → MatchingBlocks [("ov".toList, ⟨[1, 1], fun _ => (1 : ℚ)⟩)] [("ov".toList, ⟨[1, 1], fun _ => r1 [true, false]⟩)] D (ampKey n 0) := by
      intro n h1 _ h2
      obtain rfl : n = 1 := by omega
      exact ⟨⟨[1, 1], fun _ => (1 : ℚ)⟩, ⟨[1, 1], fun _ => r1 [true, false]⟩, X, rfl, rfl, hX, by rw [hXi.1]; rfl, rfl⟩
    obtain ⟨T', hT', hU, _⟩ := C83_update (S := ℚ) [("ov".toList, ⟨[1, 1], fun _ => (1 : ℚ)⟩)] [("ov".toList, ⟨[1, 1], fun _ => r1 [true, false]⟩)] D 1 hM
    obtain ⟨t, r, d, t', _, _, _, ht', _, _⟩ := hU 1 (by decide) (by decide) (by decide)
    refine ⟨D, T', t', hD, hT', ht', ?_⟩
    have := C85_converged_partial (Ω := Bool) (R := ℚ) (B := Matrix (Fin 4) (Fin 4) ℚ) srHistory (fmt := (cutAt 9)) (cfg := {}) (H := ccH) (T := ccT) (N := 2) (ord := 2) (minr := 0) (maxr := 2) (e := e)
      hgen (by decide) cut9_prints (by decide) (by decide) (by decide) cc_input (by decide) he hb hHT
      jwSys (fun _ _ _ => 1) (fun c => if c = 'o' then {true} else {false}) id jwVac jw_anti jw_car srReg_vacuum jw_expectation harr hdom
      (fun _ => true) (fun _ => false) 1 1 (by intro x; cases x <;> simp) (by intro x; cases x <;> simp) (by simp) (by simp) m hm
      [("oo".toList, ⟨[1, 1], fun _ => 0⟩), ("vv".toList, ⟨[1, 1], fun _ => (1 : ℚ)⟩)] [("ov".toList, ⟨[1, 1], fun _ => (1 : ℚ)⟩)] [("ov".toList, ⟨[1, 1], fun _ => r1 [true, false]⟩)] D T'
      ⟨[1, 1], fun _ => 0⟩ ⟨[1, 1], fun _ => 1⟩ 1 rfl rfl rfl rfl hD hM hT' 1 (by decide) (by decide) (by decide) (by decide)
      (by
        intro I A hI hA
        have h1 := (positions_within hA).1
        match A, h1 with
        | [a], _ => simp) text1 hg1 ⟨[1, 1], fun _ => (1 : ℚ)⟩ ⟨[1, 1], fun _ => r1 [true, false]⟩ t' rfl rfl ht'
      (by
        intro result hresult I A hI hA
        have h1 := returnsArray_unique hresult hr1
        subst h1
        have h1 := (positions_within hI).1
        have h2 := (positions_within hA).1
        match I, A, h1, h2 with
        | [i], [a], _, _ => simp [antisymmetrizer, permuted])
    exact this
end Wick
end Wicked
