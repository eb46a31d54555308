import Verif.Props.CoupledCluster
/-! # C84 and C85 for the spin-integrated programs: `generate_equation(mbeq, nocc, nvir, space)` -/
namespace Wicked
open CppLt CppEq Rational Lin
namespace Wick
section
variable {Ω R A : Type} [Inhabited Ω] [DecidableEq Ω] [CommRing R] [Ring A] [Algebra R A] [Algebra ℚ R] [Algebra ℚ A] [IsScalarTower ℚ R A]

theorem spaceKey_parts {o : OSI} (hal : ∀ s ∈ o.spaces, isAlpha s.label = true) (n k : Nat → Nat) :
    keyUpper (spaceKey o n k) = repeatLabels o n ∧ keyLower (spaceKey o n k) = repeatLabels o k ∧
      pySplit ['|'] (spaceKey o n k) = [repeatLabels o n, (repeatLabels o k).reverse] := by
  have hbar : ∀ n, '|' ∉ repeatLabels o n := fun n hm => by
    obtain ⟨x, hx, hc⟩ := mem_repeatLabels hm
    exact absurd (hal x hx) (by rw [hc]; decide)
  have hb : breakOn ['|'] (spaceKey o n k) = some (repeatLabels o n, (repeatLabels o k).reverse) := by
    have := breakOn_app (c0 := '|') (sep := []) (a := repeatLabels o n) (b := (repeatLabels o k).reverse) (hbar _)
    rw [List.append_assoc] at this
    exact this
  refine ⟨by unfold keyUpper; rw [hb]; rfl, by unfold keyLower; rw [hb]; simp, ?_⟩
  obtain ⟨l, hs, hl'⟩ := pySplit_bar (a := repeatLabels o n) (b := (repeatLabels o k).reverse) (hbar _)
  rw [spaceKey, hs, hl' (fun h => hbar _ (List.mem_reverse.1 h))]

/-- **C84** for the programs with several spaces (the spin-integrated notebooks), for arbitrary coefficients: the matrix element of the operator expression is the sum over the terms of the result of the coefficient times the
matrix element of the term, and the array that the function returns, antisymmetrised over the indices of each space, is the same sum with the numbers that are printed for the coefficients, which are off by less than `10^-9`. Missing: products with three alike contractions (C50). -/
theorem C84_residual_space_rounded_partial (hist : List RegOp) {fmt : Rational → Str} {cfg : WickCfg} {E : OpExpr} {f : Rational} {minr maxr : Int} {e : Expr} :
    let o := runReg OSI.empty hist
    (∀ s ∈ o.spaces, ∀ name ∈ s.indices, ∀ (c : Char) (n : Int), name ≠ c :: '_' :: '{' :: (intStr n ++ ['}'])) →
    (∀ s ∈ o.spaces, isAlpha s.label = true) → PrintsNine fmt →
    o.spaces.length ≤ 8 → (∀ q ∈ E, q.1 ≠ [] ∧ Canon q.2 ∧ ∀ p ∈ q.1, p.Valid o.spaces.length ∧ ∀ c ∈ p.label, isWord c = true) → Canon f →
    contractExpr o cfg f E minr maxr = .ok e → (∀ p ∈ e, p.1.allIdx.toFinset.card ≤ 52) → (∀ q ∈ E, NoTriples o q.1) →
    (∀ p ∈ e, ∀ y ∈ p.1.tensors, y.label = ['H'] ∨ y.label = ['T']) →
    ∀ (v : OrbSystem Ω R A) (arr : Str → Str → List Ω → R) (dom : Char → Finset Ω) (hole : Ω → Bool) (φ : A →ₗ[R] R), v.Antisymmetric → IsCAR v.op → v.Vacuum o hole →
    IsVacuumExpectation v.op hole φ →
    (∀ p ∈ e, ∀ y ∈ p.1.tensors, ∀ l u, l.length = y.lower.length → u.length = y.upper.length → arr y.label (spaceText o y) (u ++ l) = v.T y.label l u) →
    (∀ (n : Nat) s, o.spaces[n]? = some s → dom s.label = v.dom n) →
    (∀ p ∈ e, |litVal fmt p.2 - toRat p.2| < 1 / 10 ^ 9) ∧
    ∃ m, e.toManybody o ['R'] = .ok m ∧ ∀ (n k : Nat → Nat) (nocc nvir : Nat), nocc = (repeatLabels o n).length → nvir = (repeatLabels o k).length → minr ≤ nocc + nvir → nocc + nvir ≤ maxr →
      (∃ text r, generateEquationSpace o fmt m nocc nvir (spaceKey o n k) = .ok text ∧
        ReturnsArray arr dom text ("evaluate_residual_".toList ++ (repeatLabels o n ++ repeatLabels o k))
          (if nocc + nvir = 0 then none else some (List.replicate nocc "nocc".toList ++ List.replicate nvir "nvir".toList)) r ∧
        ∀ u l : List Ω, List.Forall₂ (· ∈ ·) u ((repeatLabels o n).map dom) → List.Forall₂ (· ∈ ·) l ((repeatLabels o k).map dom) → (∀ x ∈ u, hole x = true) → (∀ x ∈ l, hole x = false) →
          φ (bra v.op u l * (toRat f • (E.map (fun q => toRat q.2 • (q.1.map (v.opValue hole o.spaces.length)).prod)).sum)) =
            (e.map (fun p => algebraMap ℚ R (toRat p.2) * φ (bra v.op u l * v.normalValue hole p.1))).sum ∧
          antisymmetrized (repeatLabels o n) (repeatLabels o k) r u l = (e.map (fun p => algebraMap ℚ R (litVal fmt p.2) * φ (bra v.op u l * v.normalValue hole p.1))).sum) ∨
      (generateEquationSpace o fmt m nocc nvir (spaceKey o n k) = .error .throw ∧
        ∀ u l : List Ω, List.Forall₂ (· ∈ ·) u ((repeatLabels o n).map dom) → List.Forall₂ (· ∈ ·) l ((repeatLabels o k).map dom) → (∀ x ∈ u, hole x = true) → (∀ x ∈ l, hole x = false) →
          φ (bra v.op u l * (toRat f • (E.map (fun q => toRat q.2 • (q.1.map (v.opValue hole o.spaces.length)).prod)).sum)) = 0) := by
  intro o hgen hal hfmt h8 hE hf hc hb h2 hHT v arr dom hole φ hv hcar hvac hφ harr hdom
  have hcomp : ∀ p ∈ e, p.1.Compilable o := by
    intro p hp
    obtain ⟨q, hq, e', hc', p', hp', he⟩ := contractExpr_mem hc p hp
    have := contract_compilable h8 (fun r hr => ((hE q hq).2.2 r hr).1) (hE q hq).1 (fun r hr => ((hE q hq).2.2 r hr).2) (canon_mul hf (hE q hq).2.1) hc' hp' (by
      rw [he]; exact hb p hp)
    rw [he] at this
    exact this
  obtain ⟨h0, m, hm, arrays, _, h3, h1⟩ := C82_generate_equation_space_rounded hist hgen hal hfmt hcomp
    (fun p hp => (contractExpr_spec hf (fun q hq => (hE q hq).2.1) hc).2.1.toOk.canon p hp) hHT v arr dom (normalProd hole v.op) harr hdom
  refine ⟨h0, m, hm, fun n k nocc nvir hn hk' hmin hmax => ?_⟩
  have hbar : ∀ s ∈ o.spaces, s.label ≠ '|' := fun s hs h => absurd (hal s hs) (by rw [h]; decide)
  have hd : ∀ s ∈ o.spaces, ∀ s' ∈ o.spaces, s.label ≠ s'.label → ∀ x ∈ dom s.label, x ∉ dom s'.label := by
    intro s hs s' hs' hne x hx hx'
    obtain ⟨i, hi, ei⟩ := List.mem_iff_getElem.1 hs
    obtain ⟨j, hj, ej⟩ := List.mem_iff_getElem.1 hs'
    rw [hdom i s (by rw [List.getElem?_eq_getElem hi, ei])] at hx
    rw [hdom j s' (by rw [List.getElem?_eq_getElem hj, ej])] at hx'
    exact hvac.disjoint i j hi hj (fun h => hne (by subst h; rw [← ei, ← ej])) x hx hx'
  have hreg : ∀ p ∈ e, OpsRegistered o p.1 := by
    intro p hp a ha
    have := (hcomp p hp).registered a.index (List.mem_append_left _ (List.mem_map_of_mem ha))
    unfold Index.Registered at this
    unfold OSI.numSpaces
    omega
  obtain ⟨m', hm', hnd, hk, _⟩ := C55_partition ['R'] hreg
  rw [hm] at hm'
  injection hm' with hm'
  subst hm'
  have hkeys : ∀ arrays : Str × List Equation → List Ω → R, ∀ q ∈ m.map (fun q => (q.1, arrays q)), ∃ n k, q.1 = spaceKey o n k := by
    intro arrays q hq
    obtain ⟨q', hq', rfl⟩ := List.mem_map.1 hq
    obtain ⟨p, _, e⟩ := (hk q'.1).1 (List.mem_map_of_mem hq')
    exact ⟨_, _, e.symm⟩
  have hfst : ∀ arrays : Str × List Equation → List Ω → R, (m.map (fun q => (q.1, arrays q))).map Prod.fst = m.map Prod.fst := by intro arrays; rw [List.map_map]; rfl
  have hproj := fun (arrays : Str × List Equation → List Ω → R) (u l : List Ω) hu hl hhu hhl => _root_.Wicked.C84_projection (φ := φ) hist hcar hφ dom hbar hd (m.map (fun q => (q.1, arrays q))) (by rw [hfst]; exact hnd) (hkeys arrays)
    n k u l hu hl hhu hhl
  have hφsum : ∀ (val : Rational → ℚ) (b : A), φ (b * (e.map (fun p => val p.2 • v.normalValue hole p.1)).sum) = (e.map (fun p => algebraMap ℚ R (val p.2) * φ (b * v.normalValue hole p.1))).sum := by
    intro val b
    have : ∀ e : Expr, φ (b * (e.map (fun p => val p.2 • v.normalValue hole p.1)).sum) = (e.map (fun p => algebraMap ℚ R (val p.2) * φ (b * v.normalValue hole p.1))).sum := by
      intro e
      induction e with
      | nil => simp
      | cons p e ih => rw [List.map_cons, List.sum_cons, mul_add, map_add, ih, List.map_cons, List.sum_cons, mul_smul_comm, map_rat_smul, Algebra.smul_def]
    exact this e
  have hsum : ((m.map (fun q => (q.1, arrays q.1))).map (fun q => keyOperator dom (normalProd hole v.op) q.1 q.2)).sum = (e.map (fun p => litVal fmt p.2 • v.normalValue hole p.1)).sum := by
    rw [List.map_map]; exact h3
  have hsum' : ((m.map (fun q => (q.1, fun x => (q.2.map (fun eq => algebraMap ℚ R (toRat eq.factor) * (eq.lhs.tensors.map (fun t => eq.element v t x)).sum)).sum))).map (fun q => keyOperator dom (normalProd hole v.op) q.1 q.2)).sum =
      Lin.eval (v.normalValue hole) e := by
    rw [List.map_map]
    exact manybody_arrays_value hbar hcomp hreg toRat v dom (normalProd hole v.op) hdom hm
  have hval : ∀ u l : List Ω, List.Forall₂ (· ∈ ·) u ((repeatLabels o n).map dom) → List.Forall₂ (· ∈ ·) l ((repeatLabels o k).map dom) → (∀ x ∈ u, hole x = true) → (∀ x ∈ l, hole x = false) →
      φ (bra v.op u l * Lin.eval (v.normalValue hole) e) = φ (bra v.op u l * (toRat f • (E.map (fun q => toRat q.2 • (q.1.map (v.opValue hole o.spaces.length)).prod)).sum)) := by
    intro u l hun hlk hu hl
    have e1 := hun.length_eq
    have e2 := hlk.length_eq
    rw [List.length_map] at e1 e2
    exact Wick.C84_window_partial h8 (fun q hq p hp => ((hE q hq).2.2 p hp).1) h2 (fun q hq => (hE q hq).2.1) hf hc hv hcar hvac
      (ψ := φ ∘ₗ LinearMap.mulLeft R (bra v.op u l)) (fun w hw => bra_normalProd_length hcar hφ hu hl (by omega))
  have hproj1 := hproj (fun q => arrays q.1)
  have hproj2 := hproj (fun q x => (q.2.map (fun eq => algebraMap ℚ R (toRat eq.factor) * (eq.lhs.tensors.map (fun t => eq.element v t x)).sum)).sum)
  rw [hsum, hfst] at hproj1
  rw [hsum', hfst] at hproj2
  obtain ⟨ku, kl, hsplit⟩ := spaceKey_parts hal n k
  by_cases hmem : spaceKey o n k ∈ m.map Prod.fst
  · left
    obtain ⟨q, hq, e⟩ := List.mem_map.1 hmem
    obtain ⟨text, ht, hr⟩ := h1 q hq nocc nvir (by rw [e, ku, kl, List.length_append, hn, hk'])
    rw [e] at ht hr
    rw [ku, kl] at hr
    refine ⟨text, _, ht, hr, fun u l hun hlk hu hl => ⟨?_, ?_⟩⟩
    · rw [← hval u l hun hlk hu hl]
      exact hφsum toRat _
    · rw [← hφsum (litVal fmt)]
      exact ((hproj1 u l hun hlk hu hl).1 _ (List.mem_map.2 ⟨q, hq, by rw [e]⟩)).symm
  · right
    refine ⟨?_, fun u l hun hlk hu hl => ?_⟩
    · unfold generateEquationSpace
      rw [hsplit]
      dsimp only
      unfold generateFunction
      rw [List.find?_eq_none.2 (by
        intro q hq h
        exact hmem (List.mem_map.2 ⟨q, hq, of_decide_eq_true h⟩))]
      rfl
    · rw [← hval u l hun hlk hu hl]
      exact (hproj2 u l hun hlk hu hl).2 hmem

/-- **C84** for the programs with several spaces (the spin-integrated notebooks): all spaces are occupied or unoccupied, and the tensors are called `H` and `T`. For every
key with `n s` upper and `k s` lower indices in the space `s`, in the window of ranks, and all occupied orbitals `u` and unoccupied orbitals `l` of these spaces: if `generate_equation(mbeq, nocc, nvir, key)`
returns a function, the array that the function returns, antisymmetrised over the indices of each space, is the matrix element of the operator expression between the vacuum
and the determinant excited from `u` to `l`; if it raises because there is no such key, the matrix element is zero. -/
theorem C84_residual_space_partial (hist : List RegOp) {fmt : Rational → Str} {cfg : WickCfg} {E : OpExpr} {f : Rational} {minr maxr : Int} {e : Expr} :
    let o := runReg OSI.empty hist
    (∀ s ∈ o.spaces, ∀ name ∈ s.indices, ∀ (c : Char) (n : Int), name ≠ c :: '_' :: '{' :: (intStr n ++ ['}'])) →
    (∀ s ∈ o.spaces, isAlpha s.label = true) → PrintsNine fmt →
    o.spaces.length ≤ 8 → (∀ q ∈ E, q.1 ≠ [] ∧ Canon q.2 ∧ ∀ p ∈ q.1, p.Valid o.spaces.length ∧ ∀ c ∈ p.label, isWord c = true) → Canon f →
    contractExpr o cfg f E minr maxr = .ok e → (∀ p ∈ e, p.1.allIdx.toFinset.card ≤ 52 ∧ p.2.den ∣ 10 ^ 9) → (∀ q ∈ E, NoTriples o q.1) →
    (∀ p ∈ e, ∀ y ∈ p.1.tensors, y.label = ['H'] ∨ y.label = ['T']) →
    ∀ (v : OrbSystem Ω R A) (arr : Str → Str → List Ω → R) (dom : Char → Finset Ω) (hole : Ω → Bool) (φ : A →ₗ[R] R), v.Antisymmetric → IsCAR v.op → v.Vacuum o hole →
    IsVacuumExpectation v.op hole φ →
    (∀ p ∈ e, ∀ y ∈ p.1.tensors, ∀ l u, l.length = y.lower.length → u.length = y.upper.length → arr y.label (spaceText o y) (u ++ l) = v.T y.label l u) →
    (∀ (n : Nat) s, o.spaces[n]? = some s → dom s.label = v.dom n) →
    ∃ m, e.toManybody o ['R'] = .ok m ∧ ∀ (n k : Nat → Nat) (nocc nvir : Nat), nocc = (repeatLabels o n).length → nvir = (repeatLabels o k).length → minr ≤ nocc + nvir → nocc + nvir ≤ maxr →
      (∃ text r, generateEquationSpace o fmt m nocc nvir (spaceKey o n k) = .ok text ∧
        ReturnsArray arr dom text ("evaluate_residual_".toList ++ (repeatLabels o n ++ repeatLabels o k))
          (if nocc + nvir = 0 then none else some (List.replicate nocc "nocc".toList ++ List.replicate nvir "nvir".toList)) r ∧
        ∀ u l : List Ω, List.Forall₂ (· ∈ ·) u ((repeatLabels o n).map dom) → List.Forall₂ (· ∈ ·) l ((repeatLabels o k).map dom) → (∀ x ∈ u, hole x = true) → (∀ x ∈ l, hole x = false) →
          φ (bra v.op u l * (toRat f • (E.map (fun q => toRat q.2 • (q.1.map (v.opValue hole o.spaces.length)).prod)).sum)) =
            antisymmetrized (repeatLabels o n) (repeatLabels o k) r u l) ∨
      (generateEquationSpace o fmt m nocc nvir (spaceKey o n k) = .error .throw ∧
        ∀ u l : List Ω, List.Forall₂ (· ∈ ·) u ((repeatLabels o n).map dom) → List.Forall₂ (· ∈ ·) l ((repeatLabels o k).map dom) → (∀ x ∈ u, hole x = true) → (∀ x ∈ l, hole x = false) →
          φ (bra v.op u l * (toRat f • (E.map (fun q => toRat q.2 • (q.1.map (v.opValue hole o.spaces.length)).prod)).sum)) = 0) := by
  intro o hgen hal hfmt h8 hE hf hc hb h2 hHT v arr dom hole φ hv hcar hvac hφ harr hdom
  obtain ⟨_, m, hm, h⟩ := C84_residual_space_rounded_partial hist hgen hal hfmt h8 hE hf hc (fun p hp => (hb p hp).1) h2 hHT v arr dom hole φ hv hcar hvac hφ harr hdom
  refine ⟨m, hm, fun n k nocc nvir hn hk hmin hmax => ?_⟩
  rcases h n k nocc nvir hn hk hmin hmax with ⟨text, r, ht, hr, h⟩ | h
  · refine Or.inl ⟨text, r, ht, hr, fun u l hun hlk hu hl => ?_⟩
    obtain ⟨h1, h2⟩ := h u l hun hlk hu hl
    rw [h1, h2]
    congr 1
    apply List.map_congr_left
    intro p hp
    rw [litVal_exact hfmt ((contractExpr_spec hf (fun q hq => (hE q hq).2.1) hc).2.1.toOk.canon p hp) (hb p hp).2]
  · exact Or.inr h

/-- **C84**, the error of the spin-integrated residuals: arrays of numbers with an absolute value (real or complex numbers). Without any hypothesis on the denominators, the array of the function that `generate_equation(mbeq, nocc, nvir, key)`
returns, antisymmetrised over the indices of each space, differs from the matrix element of the operator expression between the vacuum and the excited determinant by at most `10^-9` times the sum of the absolute values of the
matrix elements of the terms of the result. Missing: products with three alike contractions (C50). -/
theorem C84_residual_space_error_partial {S : Type} [Field S] [LinearOrder S] [IsStrictOrderedRing S] (abv : AbsoluteValue R S)
    (habv : ∀ c : ℚ, abv (algebraMap ℚ R c) = ((|c| : ℚ) : S)) (hist : List RegOp) {fmt : Rational → Str} {cfg : WickCfg} {E : OpExpr} {f : Rational} {minr maxr : Int} {e : Expr} :
    let o := runReg OSI.empty hist
    (∀ s ∈ o.spaces, ∀ name ∈ s.indices, ∀ (c : Char) (n : Int), name ≠ c :: '_' :: '{' :: (intStr n ++ ['}'])) →
    (∀ s ∈ o.spaces, isAlpha s.label = true) → PrintsNine fmt →
    o.spaces.length ≤ 8 → (∀ q ∈ E, q.1 ≠ [] ∧ Canon q.2 ∧ ∀ p ∈ q.1, p.Valid o.spaces.length ∧ ∀ c ∈ p.label, isWord c = true) → Canon f →
    contractExpr o cfg f E minr maxr = .ok e → (∀ p ∈ e, p.1.allIdx.toFinset.card ≤ 52) → (∀ q ∈ E, NoTriples o q.1) →
    (∀ p ∈ e, ∀ y ∈ p.1.tensors, y.label = ['H'] ∨ y.label = ['T']) →
    ∀ (v : OrbSystem Ω R A) (arr : Str → Str → List Ω → R) (dom : Char → Finset Ω) (hole : Ω → Bool) (φ : A →ₗ[R] R), v.Antisymmetric → IsCAR v.op → v.Vacuum o hole →
    IsVacuumExpectation v.op hole φ →
    (∀ p ∈ e, ∀ y ∈ p.1.tensors, ∀ l u, l.length = y.lower.length → u.length = y.upper.length → arr y.label (spaceText o y) (u ++ l) = v.T y.label l u) →
    (∀ (n : Nat) s, o.spaces[n]? = some s → dom s.label = v.dom n) →
    ∃ m, e.toManybody o ['R'] = .ok m ∧ ∀ (n k : Nat → Nat) (nocc nvir : Nat), nocc = (repeatLabels o n).length → nvir = (repeatLabels o k).length → minr ≤ nocc + nvir → nocc + nvir ≤ maxr →
      (∃ text r, generateEquationSpace o fmt m nocc nvir (spaceKey o n k) = .ok text ∧
        ReturnsArray arr dom text ("evaluate_residual_".toList ++ (repeatLabels o n ++ repeatLabels o k))
          (if nocc + nvir = 0 then none else some (List.replicate nocc "nocc".toList ++ List.replicate nvir "nvir".toList)) r ∧
        ∀ u l : List Ω, List.Forall₂ (· ∈ ·) u ((repeatLabels o n).map dom) → List.Forall₂ (· ∈ ·) l ((repeatLabels o k).map dom) → (∀ x ∈ u, hole x = true) → (∀ x ∈ l, hole x = false) →
          abv (antisymmetrized (repeatLabels o n) (repeatLabels o k) r u l - φ (bra v.op u l * (toRat f • (E.map (fun q => toRat q.2 • (q.1.map (v.opValue hole o.spaces.length)).prod)).sum))) ≤
            1 / 10 ^ 9 * (e.map (fun p => abv (φ (bra v.op u l * v.normalValue hole p.1)))).sum) ∨
      (generateEquationSpace o fmt m nocc nvir (spaceKey o n k) = .error .throw ∧
        ∀ u l : List Ω, List.Forall₂ (· ∈ ·) u ((repeatLabels o n).map dom) → List.Forall₂ (· ∈ ·) l ((repeatLabels o k).map dom) → (∀ x ∈ u, hole x = true) → (∀ x ∈ l, hole x = false) →
          φ (bra v.op u l * (toRat f • (E.map (fun q => toRat q.2 • (q.1.map (v.opValue hole o.spaces.length)).prod)).sum)) = 0) := by
  intro o hgen hal hfmt h8 hE hf hc hb h2 hHT v arr dom hole φ hv hcar hvac hφ harr hdom
  obtain ⟨h0, m, hm, h⟩ := C84_residual_space_rounded_partial hist hgen hal hfmt h8 hE hf hc hb h2 hHT v arr dom hole φ hv hcar hvac hφ harr hdom
  refine ⟨m, hm, fun n k nocc nvir hn hk hmin hmax => ?_⟩
  rcases h n k nocc nvir hn hk hmin hmax with ⟨text, r, ht, hr, h⟩ | h
  · refine Or.inl ⟨text, r, ht, hr, fun u l hun hlk hu hl => ?_⟩
    obtain ⟨h1, h2⟩ := h u l hun hlk hu hl
    rw [h1, h2]
    have := abv_rounded_sum abv habv (ε := 1 / 10 ^ 9) e (fun p => toRat p.2) (fun p => litVal fmt p.2) h0 (fun p => φ (bra v.op u l * v.normalValue hole p.1))
    have h9 : (((1 / 10 ^ 9 : ℚ)) : S) = 1 / 10 ^ 9 := by push_cast; rfl
    rw [h9] at this
    exact this
  · exact Or.inr h

/-- **C85** for the programs with several spaces (the spin-integrated notebooks): the functions that `generate_equation(mbeq, nocc, nvir, key)` makes from
`contract(bch_series(H, T, n), minr, maxr)` return, antisymmetrised over the indices of each space, the matrix elements of `exp(-T) H exp(T)` between the vacuum and the excited determinants. -/
theorem C85_residual_space_partial (hist : List RegOp) {fmt : Rational → Str} {cfg : WickCfg} {H T : OpExpr} {N : Nat} {ord : Int} {minr maxr : Int} {e : Expr} :
    let o := runReg OSI.empty hist
    (∀ s ∈ o.spaces, ∀ name ∈ s.indices, ∀ (c : Char) (n : Int), name ≠ c :: '_' :: '{' :: (intStr n ++ ['}'])) →
    (∀ s ∈ o.spaces, isAlpha s.label = true) → PrintsNine fmt →
    o.spaces.length ≤ 8 → CCInput o H T N → (N : Int) ≤ ord →
    contractExpr o cfg (Rational.ofInt 1) (OpExpr.bchSeries H T ord) minr maxr = .ok e → (∀ p ∈ e, p.1.allIdx.toFinset.card ≤ 52 ∧ p.2.den ∣ 10 ^ 9) →
    (∀ p ∈ e, ∀ y ∈ p.1.tensors, y.label = ['H'] ∨ y.label = ['T']) →
    ∀ (v : OrbSystem Ω R A) (arr : Str → Str → List Ω → R) (dom : Char → Finset Ω) (hole : Ω → Bool) (φ : A →ₗ[R] R), v.Antisymmetric → IsCAR v.op → v.Vacuum o hole →
    IsVacuumExpectation v.op hole φ →
    (∀ p ∈ e, ∀ y ∈ p.1.tensors, ∀ l u, l.length = y.lower.length → u.length = y.upper.length → arr y.label (spaceText o y) (u ++ l) = v.T y.label l u) →
    (∀ (n : Nat) s, o.spaces[n]? = some s → dom s.label = v.dom n) →
    ∃ m, e.toManybody o ['R'] = .ok m ∧ ∀ (n k : Nat → Nat) (nocc nvir : Nat), nocc = (repeatLabels o n).length → nvir = (repeatLabels o k).length → minr ≤ nocc + nvir → nocc + nvir ≤ maxr →
      (∃ text r, generateEquationSpace o fmt m nocc nvir (spaceKey o n k) = .ok text ∧
        ReturnsArray arr dom text ("evaluate_residual_".toList ++ (repeatLabels o n ++ repeatLabels o k))
          (if nocc + nvir = 0 then none else some (List.replicate nocc "nocc".toList ++ List.replicate nvir "nvir".toList)) r ∧
        ∀ u l : List Ω, List.Forall₂ (· ∈ ·) u ((repeatLabels o n).map dom) → List.Forall₂ (· ∈ ·) l ((repeatLabels o k).map dom) → (∀ x ∈ u, hole x = true) → (∀ x ∈ l, hole x = false) →
          φ (bra v.op u l * (IsNilpotent.exp (-v.exprValue hole o.spaces.length T) * v.exprValue hole o.spaces.length H * IsNilpotent.exp (v.exprValue hole o.spaces.length T))) =
            antisymmetrized (repeatLabels o n) (repeatLabels o k) r u l) ∨
      (generateEquationSpace o fmt m nocc nvir (spaceKey o n k) = .error .throw ∧
        ∀ u l : List Ω, List.Forall₂ (· ∈ ·) u ((repeatLabels o n).map dom) → List.Forall₂ (· ∈ ·) l ((repeatLabels o k).map dom) → (∀ x ∈ u, hole x = true) → (∀ x ∈ l, hole x = false) →
          φ (bra v.op u l * (IsNilpotent.exp (-v.exprValue hole o.spaces.length T) * v.exprValue hole o.spaces.length H * IsNilpotent.exp (v.exprValue hole o.spaces.length T))) = 0) := by
  intro o hgen hal hfmt h8 hin hN hc hb hHT v arr dom hole φ hv hcar hvac hφ harr hdom
  obtain ⟨hE, h3⟩ := ccInput_bch hin ord
  have hval := (C85_similarity (R := R) h8 hcar hvac hin.builtH hin.builtT hin.size hin.validH hin.neT hin.excT hN).2
  have hone : toRat (Rational.ofInt 1) = 1 := by norm_num [toRat, Rational.ofInt]
  have h := C84_residual_space_partial hist hgen hal hfmt h8 hE (canon_ofInt 1) hc hb h3 hHT v arr dom hole φ hv hcar hvac hφ harr hdom
  rw [← hval]
  simp only [hone, one_smul] at h
  exact h

/-- **C85**, the error of the equations of the spin-integrated programs: without any hypothesis on the denominators, for arrays of numbers with an absolute value: the arrays of the functions that `generate_equation(mbeq, nocc, nvir, key)` makes, antisymmetrised over the
indices of each space, differ from the matrix elements of `exp(-T) H exp(T)` by at most `10^-9` times the sum of the absolute values of the matrix elements of the terms of the result of `contract`. Missing: Hamiltonians with more than two-body operators. -/
theorem C85_residual_space_error_partial {S : Type} [Field S] [LinearOrder S] [IsStrictOrderedRing S] (abv : AbsoluteValue R S)
    (habv : ∀ c : ℚ, abv (algebraMap ℚ R c) = ((|c| : ℚ) : S)) (hist : List RegOp) {fmt : Rational → Str} {cfg : WickCfg} {H T : OpExpr} {N : Nat} {ord : Int} {minr maxr : Int} {e : Expr} :
    let o := runReg OSI.empty hist
    (∀ s ∈ o.spaces, ∀ name ∈ s.indices, ∀ (c : Char) (n : Int), name ≠ c :: '_' :: '{' :: (intStr n ++ ['}'])) →
    (∀ s ∈ o.spaces, isAlpha s.label = true) → PrintsNine fmt →
    o.spaces.length ≤ 8 → CCInput o H T N → (N : Int) ≤ ord →
    contractExpr o cfg (Rational.ofInt 1) (OpExpr.bchSeries H T ord) minr maxr = .ok e → (∀ p ∈ e, p.1.allIdx.toFinset.card ≤ 52) →
    (∀ p ∈ e, ∀ y ∈ p.1.tensors, y.label = ['H'] ∨ y.label = ['T']) →
    ∀ (v : OrbSystem Ω R A) (arr : Str → Str → List Ω → R) (dom : Char → Finset Ω) (hole : Ω → Bool) (φ : A →ₗ[R] R), v.Antisymmetric → IsCAR v.op → v.Vacuum o hole →
    IsVacuumExpectation v.op hole φ →
    (∀ p ∈ e, ∀ y ∈ p.1.tensors, ∀ l u, l.length = y.lower.length → u.length = y.upper.length → arr y.label (spaceText o y) (u ++ l) = v.T y.label l u) →
    (∀ (n : Nat) s, o.spaces[n]? = some s → dom s.label = v.dom n) →
    ∃ m, e.toManybody o ['R'] = .ok m ∧ ∀ (n k : Nat → Nat) (nocc nvir : Nat), nocc = (repeatLabels o n).length → nvir = (repeatLabels o k).length → minr ≤ nocc + nvir → nocc + nvir ≤ maxr →
      (∃ text r, generateEquationSpace o fmt m nocc nvir (spaceKey o n k) = .ok text ∧
        ReturnsArray arr dom text ("evaluate_residual_".toList ++ (repeatLabels o n ++ repeatLabels o k))
          (if nocc + nvir = 0 then none else some (List.replicate nocc "nocc".toList ++ List.replicate nvir "nvir".toList)) r ∧
        ∀ u l : List Ω, List.Forall₂ (· ∈ ·) u ((repeatLabels o n).map dom) → List.Forall₂ (· ∈ ·) l ((repeatLabels o k).map dom) → (∀ x ∈ u, hole x = true) → (∀ x ∈ l, hole x = false) →
          abv (antisymmetrized (repeatLabels o n) (repeatLabels o k) r u l -
              φ (bra v.op u l * (IsNilpotent.exp (-v.exprValue hole o.spaces.length T) * v.exprValue hole o.spaces.length H * IsNilpotent.exp (v.exprValue hole o.spaces.length T)))) ≤
            1 / 10 ^ 9 * (e.map (fun p => abv (φ (bra v.op u l * v.normalValue hole p.1)))).sum) ∨
      (generateEquationSpace o fmt m nocc nvir (spaceKey o n k) = .error .throw ∧
        ∀ u l : List Ω, List.Forall₂ (· ∈ ·) u ((repeatLabels o n).map dom) → List.Forall₂ (· ∈ ·) l ((repeatLabels o k).map dom) → (∀ x ∈ u, hole x = true) → (∀ x ∈ l, hole x = false) →
          φ (bra v.op u l * (IsNilpotent.exp (-v.exprValue hole o.spaces.length T) * v.exprValue hole o.spaces.length H * IsNilpotent.exp (v.exprValue hole o.spaces.length T))) = 0) := by
  intro o hgen hal hfmt h8 hin hN hc hb hHT v arr dom hole φ hv hcar hvac hφ harr hdom
  obtain ⟨hE, h3⟩ := ccInput_bch hin ord
  have hval := (C85_similarity (R := R) h8 hcar hvac hin.builtH hin.builtT hin.size hin.validH hin.neT hin.excT hN).2
  have hone : toRat (Rational.ofInt 1) = 1 := by norm_num [toRat, Rational.ofInt]
  have h := C84_residual_space_error_partial abv habv hist hgen hal hfmt h8 hE (canon_ofInt 1) hc hb h3 hHT v arr dom hole φ hv hcar hvac hφ harr hdom
  rw [← hval]
  simp only [hone, one_smul] at h
  exact h
end

section
variable {Ω R B : Type} [Inhabited Ω] [DecidableEq Ω] [Field R] [Ring B] [Algebra R B] [Algebra ℚ B] [Algebra ℚ R] [IsScalarTower ℚ R B]

theorem split_letters {dom : Char → Finset Ω} {a b : Char} {k l : Nat} {u : List Ω} (h : List.Forall₂ (· ∈ ·) u ((List.replicate k a ++ List.replicate l b).map dom)) :
    ∃ u₁ u₂, u = u₁ ++ u₂ ∧ (u₁.length = k ∧ ∀ x ∈ u₁, x ∈ dom a) ∧ (u₂.length = l ∧ ∀ x ∈ u₂, x ∈ dom b) := by
  rw [List.map_append, List.map_replicate, List.map_replicate] at h
  have h1 := List.forall₂_take k h
  have h2 := List.forall₂_drop k h
  have e1 : (List.replicate k (dom a) ++ List.replicate l (dom b)).take k = List.replicate k (dom a) := by simp
  have e2 : (List.replicate k (dom a) ++ List.replicate l (dom b)).drop k = List.replicate l (dom b) := by simp
  rw [e1] at h1
  rw [e2] at h2
  refine ⟨u.take k, u.drop k, (List.take_append_drop k u).symm, ⟨by simpa using h1.length_eq, fun x hx => ?_⟩, ⟨by simpa using h2.length_eq, fun x hx => ?_⟩⟩
  · obtain ⟨y, hy, hr⟩ := forall₂_left' h1 x hx
    rw [(List.mem_replicate.1 hy).2] at hr
    exact hr
  · obtain ⟨y, hy, hr⟩ := forall₂_left' h2 x hx
    rw [(List.mem_replicate.1 hy).2] at hr
    exact hr

theorem join_letters {dom : Char → Finset Ω} {a b : Char} {k l : Nat} {u₁ u₂ : List Ω} (h1 : u₁.length = k ∧ ∀ x ∈ u₁, x ∈ dom a) (h2 : u₂.length = l ∧ ∀ x ∈ u₂, x ∈ dom b) :
    List.Forall₂ (· ∈ ·) (u₁ ++ u₂) ((List.replicate k a ++ List.replicate l b).map dom) := by
  rw [List.map_append, List.map_replicate, List.map_replicate]
  obtain ⟨rfl, h1⟩ := h1
  obtain ⟨rfl, h2⟩ := h2
  have key : ∀ (u : List Ω) (s : Finset Ω), (∀ x ∈ u, x ∈ s) → List.Forall₂ (· ∈ ·) u (List.replicate u.length s) := by
    intro u s h
    induction u with
    | nil => exact .nil
    | cons x u ih => exact .cons (h x (by simp)) (ih (fun y hy => h y (by simp [hy])))
  exact List.rel_append (key u₁ _ h1) (key u₂ _ h2)

/-- **C85**, convergence of the spin-integrated programs: the spin-up and the spin-down orbitals stand at the positions `0, 1, ...` of the axes, the residual blocks are the antisymmetrised arrays
that the generated functions return, no excitation energy is zero. Then `update_cc_amplitudes` leaves the block with `k` spin-up and `l` spin-down excitations unchanged iff the
coupled-cluster equations of this block hold: all matrix elements of `exp(-T) H exp(T)` between the vacuum and the determinants with these excitations are zero. -/
theorem C85_converged_spin_partial (hist : List RegOp) {fmt : Rational → Str} {cfg : WickCfg} {H T : OpExpr} {N : Nat} {ord : Int} {minr maxr : Int} {e : Expr} :
    let o := runReg OSI.empty hist
    (∀ s ∈ o.spaces, ∀ name ∈ s.indices, ∀ (c : Char) (n : Int), name ≠ c :: '_' :: '{' :: (intStr n ++ ['}'])) →
    (∀ s ∈ o.spaces, isAlpha s.label = true) → PrintsNine fmt →
    o.spaces.length ≤ 8 → CCInput o H T N → (N : Int) ≤ ord →
    contractExpr o cfg (Rational.ofInt 1) (OpExpr.bchSeries H T ord) minr maxr = .ok e → (∀ p ∈ e, p.1.allIdx.toFinset.card ≤ 52 ∧ p.2.den ∣ 10 ^ 9) →
    (∀ p ∈ e, ∀ y ∈ p.1.tensors, y.label = ['H'] ∨ y.label = ['T']) →
    ∀ (v : OrbSystem Ω R B) (arr : Str → Str → List Ω → R) (dom : Char → Finset Ω) (hole : Ω → Bool) (φ : B →ₗ[R] R), v.Antisymmetric → IsCAR v.op → v.Vacuum o hole →
    IsVacuumExpectation v.op hole φ →
    (∀ p ∈ e, ∀ y ∈ p.1.tensors, ∀ l u, l.length = y.lower.length → u.length = y.upper.length → arr y.label (spaceText o y) (u ++ l) = v.T y.label l u) →
    (∀ (n : Nat) s, o.spaces[n]? = some s → dom s.label = v.dom n) →
    ∀ (up dn upv dnv : Nat → Ω) (no nv : Nat), (∀ x, x ∈ dom 'o' ↔ ∃ i < no, up i = x) → (∀ x, x ∈ dom 'O' ↔ ∃ i < no, dn i = x) → (∀ x, x ∈ dom 'v' ↔ ∃ i < nv, upv i = x) →
    (∀ x, x ∈ dom 'V' ↔ ∃ i < nv, dnv i = x) → (∀ x, x ∈ dom 'o' ∨ x ∈ dom 'O' → hole x = true) → (∀ x, x ∈ dom 'v' ∨ x ∈ dom 'V' → hole x = false) →
    ∀ m, e.toManybody o ['R'] = .ok m →
    ∀ (Hd Td Rd Dd Td' : List (Str × NdArray R)) (oo vv : NdArray R) (rank : Int), HasArray Hd "oo".toList oo → HasArray Hd "vv".toList vv → oo.shape = [no, no] → vv.shape = [nv, nv] →
    inverseDenominatorsSpin Hd rank = .ok Dd → (∀ k l : Nat, 1 ≤ k + l → k + l ≤ 3 → ((k + l : Nat) : Int) ≤ rank → MatchingBlocks Td Rd Dd (ampKey k l)) → updateAmplitudesSpin Td Rd Dd rank = .ok Td' →
    ∀ (k l : Nat) (n n' : Nat → Nat), repeatLabels o n = List.replicate k 'o' ++ List.replicate l 'O' → repeatLabels o n' = List.replicate k 'v' ++ List.replicate l 'V' →
    1 ≤ k + l → ((k + l : Nat) : Int) ≤ rank → minr ≤ ((k + l : Nat) : Int) + (k + l : Nat) → ((k + l : Nat) : Int) + (k + l : Nat) ≤ maxr → NonzeroEnergies (k + l) no nv oo vv →
    ∀ (text : Str), generateEquationSpace o fmt m (k + l) (k + l) (spaceKey o n n') = .ok text →
    ∀ (t r t' : NdArray R), HasArray Td (ampKey k l) t → HasArray Rd (ampKey k l) r → HasArray Td' (ampKey k l) t' →
    (∀ result, ReturnsArray arr dom text ("evaluate_residual_".toList ++ (repeatLabels o n ++ repeatLabels o n')) (some (List.replicate (k + l) "nocc".toList ++ List.replicate (k + l) "nvir".toList)) result →
      ∀ I J A C, Within (List.replicate k no) I → Within (List.replicate l no) J → Within (List.replicate k nv) A → Within (List.replicate l nv) C →
        r.elem ((I ++ J) ++ (A ++ C)) = antisymmetrized (repeatLabels o n) (repeatLabels o n') result (I.map up ++ J.map dn) (A.map upv ++ C.map dnv)) →
    ((∀ I A, Within (List.replicate (k + l) no) I → Within (List.replicate (k + l) nv) A → t'.elem (I ++ A) = t.elem (I ++ A)) ↔
      ∀ u w : List Ω, List.Forall₂ (· ∈ ·) u ((repeatLabels o n).map dom) → List.Forall₂ (· ∈ ·) w ((repeatLabels o n').map dom) →
        φ (bra v.op u w * (IsNilpotent.exp (-v.exprValue hole o.spaces.length T) * v.exprValue hole o.spaces.length H * IsNilpotent.exp (v.exprValue hole o.spaces.length T))) = 0) := by
  intro o hgen hal hfmt h8 hin hN hc hb hHT v arr dom hole φ hv hcar hvac hφ harr hdom up dn upv dnv no nv hup hdn hupv hdnv hho hhv m hm
    Hd Td Rd Dd Td' oo vv rank hoo hvv' hno hnv hD hM hT' k l n n' en en' h1 hn hmin hmax hz text hg t r t' ht hr ht' hres
  obtain ⟨m', hm', h⟩ := C85_residual_space_partial hist hgen hal hfmt h8 hin hN hc hb hHT v arr dom hole φ hv hcar hvac hφ harr hdom
  rw [hm] at hm'
  injection hm' with hm'
  subst hm'
  have hk1 : k + l = (repeatLabels o n).length := by rw [en]; simp
  have hk2 : k + l = (repeatLabels o n').length := by rw [en']; simp
  have hhole : ∀ u : List Ω, List.Forall₂ (· ∈ ·) u ((repeatLabels o n).map dom) → ∀ x ∈ u, hole x = true := by
    intro u hu x hx
    rw [en] at hu
    obtain ⟨u₁, u₂, rfl, hu₁, hu₂⟩ := split_letters hu
    rcases List.mem_append.1 hx with hx | hx
    · exact hho x (Or.inl (hu₁.2 x hx))
    · exact hho x (Or.inr (hu₂.2 x hx))
  have hhole' : ∀ u : List Ω, List.Forall₂ (· ∈ ·) u ((repeatLabels o n').map dom) → ∀ x ∈ u, hole x = false := by
    intro u hu x hx
    rw [en'] at hu
    obtain ⟨u₁, u₂, rfl, hu₁, hu₂⟩ := split_letters hu
    rcases List.mem_append.1 hx with hx | hx
    · exact hhv x (Or.inl (hu₁.2 x hx))
    · exact hhv x (Or.inr (hu₂.2 x hx))
  rcases h n n' (k + l) (k + l) hk1 hk2 hmin hmax with ⟨text', result, hg', hret, hval⟩ | ⟨hg', _⟩
  · rw [hg] at hg'
    injection hg' with hg'
    subst hg'
    rw [if_neg (by omega)] at hret
    have hres := hres result hret
    have hfix := fun I A hI hA => C83_fixed_point_spin Hd Td Rd Dd Td' oo vv no nv hoo hvv' hno hnv rank hD hM hT' k l h1 hn hz t r t' ht hr ht' I A hI hA
    have hsplit : ∀ (x : Nat) (I : List Nat), Within (List.replicate (k + l) x) I → ∃ I₁ I₂, I = I₁ ++ I₂ ∧ Within (List.replicate k x) I₁ ∧ Within (List.replicate l x) I₂ := by
      intro x I hI
      refine ⟨I.take k, I.drop k, (List.take_append_drop k I).symm, ?_, ?_⟩
      · have := List.forall₂_take k hI
        simpa [Within] using this
      · have := List.forall₂_drop k hI
        simpa [Within] using this
    have hjoin : ∀ (x : Nat) (I J : List Nat), Within (List.replicate k x) I → Within (List.replicate l x) J → Within (List.replicate (k + l) x) (I ++ J) := by
      intro x I J hI hJ
      rw [List.replicate_add]
      exact List.rel_append hI hJ
    have hpos : ∀ {s : Finset Ω} {c q : Nat} {p : Nat → Ω} {I : List Nat}, (∀ x, x ∈ s ↔ ∃ i < q, p i = x) → Within (List.replicate c q) I → (I.map p).length = c ∧ ∀ x ∈ I.map p, x ∈ s := by
      intro s c q p I hs hI
      have hI' := positions_within hI
      refine ⟨by rw [List.length_map, hI'.1], fun x hx => ?_⟩
      obtain ⟨i, hi, rfl⟩ := List.mem_map.1 hx
      exact (hs _).2 ⟨i, hI'.2 i hi, rfl⟩
    constructor
    · intro hall u w hu hw
      rw [hval u w hu hw (hhole u hu) (hhole' w hw)]
      rw [en] at hu
      rw [en'] at hw
      obtain ⟨u₁, u₂, rfl, hu₁, hu₂⟩ := split_letters hu
      obtain ⟨w₁, w₂, rfl, hw₁, hw₂⟩ := split_letters hw
      obtain ⟨I, hI, rfl⟩ := tuples_of_positions hup hu₁.1 hu₁.2
      obtain ⟨J, hJ, rfl⟩ := tuples_of_positions hdn hu₂.1 hu₂.2
      obtain ⟨A, hA, rfl⟩ := tuples_of_positions hupv hw₁.1 hw₁.2
      obtain ⟨C, hC, rfl⟩ := tuples_of_positions hdnv hw₂.1 hw₂.2
      rw [← hres I J A C hI hJ hA hC]
      exact (hfix _ _ (hjoin _ _ _ hI hJ) (hjoin _ _ _ hA hC)).1 (hall _ _ (hjoin _ _ _ hI hJ) (hjoin _ _ _ hA hC))
    · intro hall I A hI hA
      rw [hfix I A hI hA]
      obtain ⟨I, J, rfl, hI, hJ⟩ := hsplit _ _ hI
      obtain ⟨A, C, rfl, hA, hC⟩ := hsplit _ _ hA
      rw [hres I J A C hI hJ hA hC]
      have hu : List.Forall₂ (· ∈ ·) (I.map up ++ J.map dn) ((repeatLabels o n).map dom) := by rw [en]; exact join_letters (hpos hup hI) (hpos hdn hJ)
      have hw : List.Forall₂ (· ∈ ·) (A.map upv ++ C.map dnv) ((repeatLabels o n').map dom) := by rw [en']; exact join_letters (hpos hupv hA) (hpos hdnv hC)
      rw [← hval _ _ hu hw (hhole _ hu) (hhole' _ hw)]
      exact hall _ _ hu hw
  · rw [hg] at hg'; cases hg'
end
end Wick
end Wicked
