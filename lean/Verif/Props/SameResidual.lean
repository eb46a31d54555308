import Verif.Props.SpinResidual
import Verif.Props.GenOpValue
import Verif.Proofs.FockSpace
/-! # C95: the residual functions do not depend on the division of the orbitals into spaces -/
namespace Wicked
open CppLt CppEq Rational Lin
namespace Wick

section
variable {Ω R B α : Type} [Inhabited Ω] [DecidableEq Ω] [CommRing R] [Ring B] [Algebra R B] [Algebra ℚ R] [Algebra ℚ B] [IsScalarTower ℚ R B]

/-- **C95**, one division: a program builds an operator expression from calls of `gen_op` (`NoTriple`: an operator of rank three or higher creates in no space in which another annihilates) with `+`, `-`, `@`, scalars, `commutator` and `bch_series`. The function
that `generate_equation` makes for a key returns, antisymmetrised over the indices of each space, the matrix elements of the operator that the program stands for - an operator defined with
sets of orbitals, without spaces; where `generate_equation` finds no key, these matrix elements are zero. Missing: other operators of rank three and higher (C50). -/
theorem C95_residual_partial (hist : List RegOp) (hok : allOk OSI.empty hist) {fmt : Rational → Str} {cfg : WickCfg} {P : GenProg α} {letters : α → Str} {S : α → Finset Ω} {E : OpExpr} {f : Rational}
    {minr maxr : Int} {e : Expr} :
    let o := runReg OSI.empty hist
    (∀ s ∈ o.spaces, ∀ name ∈ s.indices, ∀ (c : Char) (n : Int), name ≠ c :: '_' :: '{' :: (intStr n ++ ['}'])) →
    (∀ s ∈ o.spaces, isAlpha s.label = true) → PrintsNine fmt →
    o.spaces.length ≤ 8 → Canon f → P.NonZero → P.NoTriple letters → (∀ lab ∈ P.labels, lab = ['H'] ∨ lab = ['T']) → P.run o letters = .ok E →
    contractExpr o cfg f E minr maxr = .ok e → (∀ p ∈ e, p.1.allIdx.toFinset.card ≤ 52 ∧ p.2.den ∣ 10 ^ 9) →
    (∀ p ∈ e, ∀ y ∈ p.1.tensors, y.label = ['H'] ∨ y.label = ['T']) →
    ∀ (v : OrbSystem Ω R B) (arr : Str → Str → List Ω → R) (dom : Char → Finset Ω) (hole : Ω → Bool) (φ : B →ₗ[R] R), Names o v letters S → v.Antisymmetric → IsCAR v.op → v.Vacuum o hole →
    IsVacuumExpectation v.op hole φ →
    (∀ p ∈ e, ∀ y ∈ p.1.tensors, ∀ l u, l.length = y.lower.length → u.length = y.upper.length → arr y.label (spaceText o y) (u ++ l) = v.T y.label l u) →
    (∀ (n : Nat) s, o.spaces[n]? = some s → dom s.label = v.dom n) →
    ∃ m, e.toManybody o ['R'] = .ok m ∧ ∀ (n k : Nat → Nat) (nocc nvir : Nat), nocc = (repeatLabels o n).length → nvir = (repeatLabels o k).length → minr ≤ nocc + nvir → nocc + nvir ≤ maxr →
      (∃ text r, generateEquationSpace o fmt m nocc nvir (spaceKey o n k) = .ok text ∧
        ReturnsArray arr dom text ("evaluate_residual_".toList ++ (repeatLabels o n ++ repeatLabels o k))
          (if nocc + nvir = 0 then none else some (List.replicate nocc "nocc".toList ++ List.replicate nvir "nvir".toList)) r ∧
        ∀ u l : List Ω, List.Forall₂ (· ∈ ·) u ((repeatLabels o n).map dom) → List.Forall₂ (· ∈ ·) l ((repeatLabels o k).map dom) → (∀ x ∈ u, hole x = true) → (∀ x ∈ l, hole x = false) →
          φ (bra v.op u l * (toRat f • P.meaning v.T (normalProd hole v.op) S)) = antisymmetrized (repeatLabels o n) (repeatLabels o k) r u l) ∨
      (generateEquationSpace o fmt m nocc nvir (spaceKey o n k) = .error .throw ∧
        ∀ u l : List Ω, List.Forall₂ (· ∈ ·) u ((repeatLabels o n).map dom) → List.Forall₂ (· ∈ ·) l ((repeatLabels o k).map dom) → (∀ x ∈ u, hole x = true) → (∀ x ∈ l, hole x = false) →
          φ (bra v.op u l * (toRat f • P.meaning v.T (normalProd hole v.op) S)) = 0) := by
  intro o hgen hal hfmt h8 hf hP h2 hlab hE hc hb hHT v arr dom hole φ hn hv hcar hvac hφ harr hdom
  obtain ⟨E', h1, hr⟩ := run_ok hist hok h8 hn hv (C81_normal_product hcar hole) hP
  rw [hE] at h1
  cases h1
  have hform := run_labels' hist hok h8 hn.nodup hn.alpha (fun lab => ∀ c ∈ lab, isWord c = true) (by
    intro lab hl
    rcases hlab lab hl with rfl | rfl <;> decide) hE
  have hval : (E.map (fun q => toRat q.2 • (q.1.map (v.opValue hole o.spaces.length)).prod)).sum = P.meaning v.T (normalProd hole v.op) S := by
    rw [← hr.value, valHomOf_expr]
    rfl
  have key := C84_residual_space_partial hist (E := E) hgen hal hfmt h8
    (fun q hq => ⟨(hform q hq).1, (built_wf hr.built).toOk.canon q hq, fun p hp => ⟨((hr.words q hq).1 p hp).1, (hform q hq).2 p hp⟩⟩) hf hc hb
    (run_noTriples hist hok h8 hn.nodup hn.alpha h2 hE) hHT v arr dom hole φ hv hcar hvac hφ harr hdom
  rw [← hval]
  exact key
end

section
variable {Ω R α : Type} [Inhabited Ω] [LinearOrder Ω] [CommRing R] [Algebra ℚ R]

/-- **C95**, two divisions: the same program is run with two registries that divide the orbitals into spaces in different ways (spin orbitals or their alpha and beta halves, with or without a
separate core), the expressions are contracted and turned into functions, and the functions are called with the elements of the same tensors `T`. For all occupied orbitals `u` and virtual orbitals `l`
that fit a key of each registry, the arrays returned by the two functions, antisymmetrised over the indices of each space, agree; and if there is a function in only one registry,
its array is zero there. Missing: operators of rank three and higher in general, where the claim is false of the code (`C94_three_body_depends`). -/
theorem C95_division_partial (hist hist' : List RegOp) (hok : allOk OSI.empty hist) (hok' : allOk OSI.empty hist') {fmt fmt' : Rational → Str} {cfg cfg' : WickCfg} {P : GenProg α} {letters letters' : α → Str}
    {S : α → Finset Ω} {E E' : OpExpr} {f : Rational} {minr maxr : Int} {e e' : Expr} :
    let o := runReg OSI.empty hist
    let o' := runReg OSI.empty hist'
    (∀ s ∈ o.spaces, ∀ name ∈ s.indices, ∀ (c : Char) (n : Int), name ≠ c :: '_' :: '{' :: (intStr n ++ ['}'])) →
    (∀ s ∈ o'.spaces, ∀ name ∈ s.indices, ∀ (c : Char) (n : Int), name ≠ c :: '_' :: '{' :: (intStr n ++ ['}'])) →
    (∀ s ∈ o.spaces, isAlpha s.label = true) → (∀ s ∈ o'.spaces, isAlpha s.label = true) → PrintsNine fmt → PrintsNine fmt' →
    o.spaces.length ≤ 8 → o'.spaces.length ≤ 8 → Canon f → P.NonZero → P.NoTriple letters → P.NoTriple letters' → (∀ lab ∈ P.labels, lab = ['H'] ∨ lab = ['T']) →
    P.run o letters = .ok E → P.run o' letters' = .ok E' →
    contractExpr o cfg f E minr maxr = .ok e → contractExpr o' cfg' f E' minr maxr = .ok e' →
    (∀ p ∈ e, p.1.allIdx.toFinset.card ≤ 52 ∧ p.2.den ∣ 10 ^ 9) → (∀ p ∈ e', p.1.allIdx.toFinset.card ≤ 52 ∧ p.2.den ∣ 10 ^ 9) →
    (∀ p ∈ e, ∀ y ∈ p.1.tensors, y.label = ['H'] ∨ y.label = ['T']) → (∀ p ∈ e', ∀ y ∈ p.1.tensors, y.label = ['H'] ∨ y.label = ['T']) →
    ∀ (T : Str → List Ω → List Ω → R) (space space' : Int → Finset Ω) (arr arr' : Str → Str → List Ω → R) (dom dom' : Char → Finset Ω) (hole : Ω → Bool),
    let v : OrbSystem Ω R (Module.End R (FockSpace Ω R)) := ⟨space, T, fockOp R hole⟩
    let v' : OrbSystem Ω R (Module.End R (FockSpace Ω R)) := ⟨space', T, fockOp R hole⟩
    Names o v letters S → Names o' v' letters' S → v.Antisymmetric → v.Vacuum o hole → v'.Vacuum o' hole →
    (∀ p ∈ e, ∀ y ∈ p.1.tensors, ∀ l u, l.length = y.lower.length → u.length = y.upper.length → arr y.label (spaceText o y) (u ++ l) = T y.label l u) →
    (∀ p ∈ e', ∀ y ∈ p.1.tensors, ∀ l u, l.length = y.lower.length → u.length = y.upper.length → arr' y.label (spaceText o' y) (u ++ l) = T y.label l u) →
    (∀ (n : Nat) s, o.spaces[n]? = some s → dom s.label = space n) → (∀ (n : Nat) s, o'.spaces[n]? = some s → dom' s.label = space' n) →
    ∃ m m', e.toManybody o ['R'] = .ok m ∧ e'.toManybody o' ['R'] = .ok m' ∧ ∀ (n k n' k' : Nat → Nat) (u l : List Ω), minr ≤ u.length + l.length → u.length + l.length ≤ maxr →
      List.Forall₂ (· ∈ ·) u ((repeatLabels o n).map dom) → List.Forall₂ (· ∈ ·) l ((repeatLabels o k).map dom) →
      List.Forall₂ (· ∈ ·) u ((repeatLabels o' n').map dom') → List.Forall₂ (· ∈ ·) l ((repeatLabels o' k').map dom') → (∀ x ∈ u, hole x = true) → (∀ x ∈ l, hole x = false) →
      ∀ sizes, sizes = (if u.length + l.length = 0 then none else some (List.replicate u.length "nocc".toList ++ List.replicate l.length "nvir".toList)) →
      ∀ text r, generateEquationSpace o fmt m u.length l.length (spaceKey o n k) = .ok text →
        ReturnsArray arr dom text ("evaluate_residual_".toList ++ (repeatLabels o n ++ repeatLabels o k)) sizes r →
        (∀ text' r', generateEquationSpace o' fmt' m' u.length l.length (spaceKey o' n' k') = .ok text' →
          ReturnsArray arr' dom' text' ("evaluate_residual_".toList ++ (repeatLabels o' n' ++ repeatLabels o' k')) sizes r' →
          antisymmetrized (repeatLabels o n) (repeatLabels o k) r u l = antisymmetrized (repeatLabels o' n') (repeatLabels o' k') r' u l) ∧
        (generateEquationSpace o' fmt' m' u.length l.length (spaceKey o' n' k') = .error .throw → antisymmetrized (repeatLabels o n) (repeatLabels o k) r u l = 0) := by
  intro o o' hgen hgen' hal hal' hfmt hfmt' h8 h8' hf hP h2 h2' hlab hE hE' hc hc' hb hb' hHT hHT' T space space' arr arr' dom dom' hole v v' hn hn' hv hvac hvac' harr harr' hdom hdom'
  obtain ⟨m, hm, h⟩ := C95_residual_partial hist hok hgen hal hfmt h8 hf hP h2 hlab hE hc hb hHT v arr dom hole (fockExpectation R) hn hv (fock_car hole) hvac (fock_expectation hole) harr hdom
  obtain ⟨m', hm', h'⟩ := C95_residual_partial hist' hok' hgen' hal' hfmt' h8' hf hP h2' hlab hE' hc' hb' hHT' v' arr' dom' hole (fockExpectation R) hn' hv (fock_car hole) hvac' (fock_expectation hole) harr' hdom'
  refine ⟨m, m', hm, hm', fun n k n' k' u l hmin hmax hu hl hu' hl' hhu hhl sizes hs text r ht hr => ?_⟩
  subst hs
  have e1 := hu.length_eq
  have e2 := hl.length_eq
  have e1' := hu'.length_eq
  have e2' := hl'.length_eq
  rw [List.length_map] at e1 e2 e1' e2'
  have hval : antisymmetrized (repeatLabels o n) (repeatLabels o k) r u l = fockExpectation R (bra v.op u l * (toRat f • P.meaning v.T (normalProd hole v.op) S)) := by
    rcases h n k u.length l.length e1 e2 hmin hmax with ⟨text₁, r₁, ht₁, hr₁, hv₁⟩ | ⟨hg, _⟩
    · rw [ht] at ht₁
      cases ht₁
      have := returnsArray_unique hr hr₁
      subst this
      exact (hv₁ u l hu hl hhu hhl).symm
    · rw [ht] at hg; cases hg
  rw [hval]
  rcases h' n' k' u.length l.length e1' e2' hmin hmax with ⟨text₁, r₁, ht₁, hr₁, hv₁⟩ | ⟨hg, hv₁⟩
  · refine ⟨fun text' r' ht' hr' => ?_, fun hg => ?_⟩
    · rw [ht'] at ht₁
      cases ht₁
      have := returnsArray_unique hr' hr₁
      subst this
      exact hv₁ u l hu' hl' hhu hhl
    · rw [hg] at ht₁; cases ht₁
  · refine ⟨fun text' r' ht' hr' => ?_, fun _ => hv₁ u l hu' hl' hhu hhl⟩
    rw [ht'] at hg; cases hg
end

/-! ## an instance: `gen_op("H", 1, all, all) @ gen_op("T", 1, virtual, occupied)` on four orbitals, with and without a core space -/

def domL2 (c : Char) : Finset (Fin 4) := if c = 'o' then {0, 1} else {2, 3}
def domL3 (c : Char) : Finset (Fin 4) := if c = 'c' then {0} else if c = 'o' then {1} else {2, 3}
def n2 : Nat → Nat := fun s => if s = 0 then 1 else 0
def k2 : Nat → Nat := fun s => if s = 1 then 1 else 0
def n3 : Nat → Nat := fun s => if s = 1 then 1 else 0
def k3 : Nat → Nat := fun s => if s = 2 then 1 else 0

theorem same_ex2 : ∃ E e, prog4.run (runReg OSI.empty srHistory) letters2 = .ok E ∧ contractExpr (runReg OSI.empty srHistory) {} (Rational.ofInt 1) E 0 4 = .ok e ∧
    ((∀ p ∈ e, p.1.allIdx.toFinset.card ≤ 52 ∧ p.2.den ∣ 10 ^ 9) ∧ (∀ p ∈ e, ∀ y ∈ p.1.tensors, y.lower.length ≤ 1 ∧ y.upper.length ≤ 1) ∧
      (∀ p ∈ e, ∀ y ∈ p.1.tensors, y.label = ['H'] ∨ y.label = ['T']) ∧
      ((Expr.toManybody (runReg OSI.empty srHistory) ['R'] e).bind (fun m => generateEquationSpace (runReg OSI.empty srHistory) (cutAt 9) m 1 1 (spaceKey (runReg OSI.empty srHistory) n2 k2))).toOption.isSome = true) := by
  obtain ⟨x, hx, h⟩ := ok_of_check (x := prog4.run (runReg OSI.empty srHistory) letters2 >>= fun E => contractExpr (runReg OSI.empty srHistory) {} (Rational.ofInt 1) E 0 4 >>= fun e => pure (E, e))
    (fun x => decide ((∀ p ∈ x.2, p.1.allIdx.toFinset.card ≤ 52 ∧ p.2.den ∣ 10 ^ 9) ∧ (∀ p ∈ x.2, ∀ y ∈ p.1.tensors, y.lower.length ≤ 1 ∧ y.upper.length ≤ 1) ∧
      (∀ p ∈ x.2, ∀ y ∈ p.1.tensors, y.label = ['H'] ∨ y.label = ['T']) ∧
      ((Expr.toManybody (runReg OSI.empty srHistory) ['R'] x.2).bind (fun m => generateEquationSpace (runReg OSI.empty srHistory) (cutAt 9) m 1 1 (spaceKey (runReg OSI.empty srHistory) n2 k2))).toOption.isSome = true))
    (by decide +kernel)
  obtain ⟨E, hE, hx⟩ := bind_ok' hx
  obtain ⟨e, he, hx⟩ := bind_ok' hx
  cases hx
  exact ⟨E, e, hE, he, of_decide_eq_true h⟩

theorem same_ex3 : ∃ E e, prog4.run (runReg OSI.empty coreHistory) letters3 = .ok E ∧ contractExpr (runReg OSI.empty coreHistory) {} (Rational.ofInt 1) E 0 4 = .ok e ∧
    ((∀ p ∈ e, p.1.allIdx.toFinset.card ≤ 52 ∧ p.2.den ∣ 10 ^ 9) ∧ (∀ p ∈ e, ∀ y ∈ p.1.tensors, y.lower.length ≤ 1 ∧ y.upper.length ≤ 1) ∧
      (∀ p ∈ e, ∀ y ∈ p.1.tensors, y.label = ['H'] ∨ y.label = ['T']) ∧
      ((Expr.toManybody (runReg OSI.empty coreHistory) ['R'] e).bind (fun m => generateEquationSpace (runReg OSI.empty coreHistory) (cutAt 9) m 1 1 (spaceKey (runReg OSI.empty coreHistory) n3 k3))).toOption.isSome = true) := by
  obtain ⟨x, hx, h⟩ := ok_of_check (x := prog4.run (runReg OSI.empty coreHistory) letters3 >>= fun E => contractExpr (runReg OSI.empty coreHistory) {} (Rational.ofInt 1) E 0 4 >>= fun e => pure (E, e))
    (fun x => decide ((∀ p ∈ x.2, p.1.allIdx.toFinset.card ≤ 52 ∧ p.2.den ∣ 10 ^ 9) ∧ (∀ p ∈ x.2, ∀ y ∈ p.1.tensors, y.lower.length ≤ 1 ∧ y.upper.length ≤ 1) ∧
      (∀ p ∈ x.2, ∀ y ∈ p.1.tensors, y.label = ['H'] ∨ y.label = ['T']) ∧
      ((Expr.toManybody (runReg OSI.empty coreHistory) ['R'] x.2).bind (fun m => generateEquationSpace (runReg OSI.empty coreHistory) (cutAt 9) m 1 1 (spaceKey (runReg OSI.empty coreHistory) n3 k3))).toOption.isSome = true))
    (by decide +kernel)
  obtain ⟨E, hE, hx⟩ := bind_ok' hx
  obtain ⟨e, he, hx⟩ := bind_ok' hx
  cases hx
  exact ⟨E, e, hE, he, of_decide_eq_true h⟩

-- all hypotheses of both theorems hold together: the two programs have a function for the excitation of the occupied orbital 1 to the virtual orbital 2, and the functions agree there
example : ∃ E e m text r E' e' m' text' r', prog4.run (runReg OSI.empty srHistory) letters2 = .ok E ∧ contractExpr (runReg OSI.empty srHistory) {} (Rational.ofInt 1) E 0 4 = .ok e ∧
    e.toManybody (runReg OSI.empty srHistory) ['R'] = .ok m ∧ generateEquationSpace (runReg OSI.empty srHistory) (cutAt 9) m 1 1 "o|v".toList = .ok text ∧
    ReturnsArray (fun _ _ _ => (1 : ℚ)) domL2 text "evaluate_residual_ov".toList (some ["nocc".toList, "nvir".toList]) r ∧
    prog4.run (runReg OSI.empty coreHistory) letters3 = .ok E' ∧ contractExpr (runReg OSI.empty coreHistory) {} (Rational.ofInt 1) E' 0 4 = .ok e' ∧
    e'.toManybody (runReg OSI.empty coreHistory) ['R'] = .ok m' ∧ generateEquationSpace (runReg OSI.empty coreHistory) (cutAt 9) m' 1 1 "o|v".toList = .ok text' ∧
    ReturnsArray (fun _ _ _ => (1 : ℚ)) domL3 text' "evaluate_residual_ov".toList (some ["nocc".toList, "nvir".toList]) r' ∧
    antisymmetrized ['o'] ['v'] r [1] [2] = antisymmetrized ['o'] ['v'] r' [1] [2] := by
  obtain ⟨E, e, hE, he, hb, ht, hHT, hs⟩ := same_ex2
  obtain ⟨E', e', hE', he', hb', ht', hHT', hs'⟩ := same_ex3
  have hok : allOk OSI.empty srHistory := by refine ⟨?_, ?_, trivial⟩ <;> decide +kernel
  have hok' : allOk OSI.empty coreHistory := by refine ⟨?_, ?_, ?_, trivial⟩ <;> decide +kernel
  have noNames : ∀ o : OSI, (∀ s ∈ o.spaces, s.indices = []) → ∀ s ∈ o.spaces, ∀ name ∈ s.indices, ∀ (c : Char) (n : Int), name ≠ c :: '_' :: '{' :: (intStr n ++ ['}']) := by
    intro o h0 s hs name hn
    rw [h0 s hs] at hn
    cases hn
  have harr : ∀ (dom : Int → Finset (Fin 4)) (e : Expr), (∀ p ∈ e, ∀ y ∈ p.1.tensors, y.lower.length ≤ 1 ∧ y.upper.length ≤ 1) →
      ∀ p ∈ e, ∀ y ∈ p.1.tensors, ∀ (l u : List (Fin 4)), l.length = y.lower.length → u.length = y.upper.length → (1 : ℚ) = (four dom).T y.label l u := by
    intro dom e ht p hp y hy l u hl hu
    have := ht p hp y hy
    show (1 : ℚ) = if l.length ≤ 1 ∧ u.length ≤ 1 then 1 else 0
    rw [if_pos ⟨by omega, by omega⟩]
  have hdom2 : ∀ (n : Nat) s, (runReg OSI.empty srHistory).spaces[n]? = some s → domL2 s.label = dom2 n := by
    intro n s hs
    match n with
    | 0 => cases hs; decide
    | 1 => cases hs; decide
    | n + 2 => cases hs
  have hdom3 : ∀ (n : Nat) s, (runReg OSI.empty coreHistory).spaces[n]? = some s → domL3 s.label = dom3 n := by
    intro n s hs
    match n with
    | 0 => cases hs; decide
    | 1 => cases hs; decide
    | 2 => cases hs; decide
    | n + 3 => cases hs
  obtain ⟨m, hm, hres⟩ := C95_residual_partial (R := ℚ) srHistory hok (fmt := cutAt 9) (cfg := {}) (P := prog4) (letters := letters2) (S := orbs4) (f := Rational.ofInt 1) (minr := 0) (maxr := 4)
    (noNames _ (by decide)) (by decide) cut9_prints (by decide) (canon_ofInt 1) ⟨trivial, trivial⟩ (.of_rank (by decide)) (by decide) hE he hb hHT
    (four dom2) (fun _ _ _ => 1) domL2 hole4 (fockExpectation ℚ) names2 (four_anti dom2) (fock_car hole4) vac2 (fock_expectation hole4) (harr dom2 e ht) hdom2
  obtain ⟨m', hm', hres'⟩ := C95_residual_partial (R := ℚ) coreHistory hok' (fmt := cutAt 9) (cfg := {}) (P := prog4) (letters := letters3) (S := orbs4) (f := Rational.ofInt 1) (minr := 0) (maxr := 4)
    (noNames _ (by decide)) (by decide) cut9_prints (by decide) (canon_ofInt 1) ⟨trivial, trivial⟩ (.of_rank (by decide)) (by decide) hE' he' hb' hHT'
    (four dom3) (fun _ _ _ => 1) domL3 hole4 (fockExpectation ℚ) names3 (four_anti dom3) (fock_car hole4) vac3 (fock_expectation hole4) (harr dom3 e' ht') hdom3
  rw [hm] at hs
  rw [hm'] at hs'
  rcases hres n2 k2 1 1 (by decide) (by decide) (by decide) (by decide) with ⟨text, r, hg, hr, _⟩ | ⟨hg, _⟩
  swap
  · have : (generateEquationSpace (runReg OSI.empty srHistory) (cutAt 9) m 1 1 (spaceKey (runReg OSI.empty srHistory) n2 k2)).toOption.isSome = true := hs
    rw [hg] at this
    cases this
  rcases hres' n3 k3 1 1 (by decide) (by decide) (by decide) (by decide) with ⟨text', r', hg', hr', _⟩ | ⟨hg, _⟩
  swap
  · have : (generateEquationSpace (runReg OSI.empty coreHistory) (cutAt 9) m' 1 1 (spaceKey (runReg OSI.empty coreHistory) n3 k3)).toOption.isSome = true := hs'
    rw [hg] at this
    cases this
  obtain ⟨m₁, m₁', hm₁, hm₁', hdiv⟩ := C95_division_partial (R := ℚ) srHistory coreHistory hok hok' (fmt := cutAt 9) (fmt' := cutAt 9) (cfg := {}) (cfg' := {}) (P := prog4) (letters := letters2)
    (letters' := letters3) (S := orbs4) (f := Rational.ofInt 1) (minr := 0) (maxr := 4)
    (noNames _ (by decide)) (noNames _ (by decide)) (by decide) (by decide) cut9_prints cut9_prints (by decide) (by decide) (canon_ofInt 1) ⟨trivial, trivial⟩ (.of_rank (by decide)) (.of_rank (by decide)) (by decide) hE hE' he he' hb hb' hHT hHT'
    (four dom2).T dom2 dom3 (fun _ _ _ => 1) (fun _ _ _ => 1) domL2 domL3 hole4 names2 names3 (four_anti dom2) vac2 vac3 (harr dom2 e ht) (harr dom3 e' ht') hdom2 hdom3
  rw [hm] at hm₁
  rw [hm'] at hm₁'
  cases hm₁
  cases hm₁'
  have l1 : repeatLabels (runReg OSI.empty srHistory) n2 = ['o'] := by decide
  have l2 : repeatLabels (runReg OSI.empty srHistory) k2 = ['v'] := by decide
  have l3 : repeatLabels (runReg OSI.empty coreHistory) n3 = ['o'] := by decide
  have l4 : repeatLabels (runReg OSI.empty coreHistory) k3 = ['v'] := by decide
  refine ⟨E, e, m, text, r, E', e', m', text', r', hE, he, hm, hg, hr, hE', he', hm', hg', hr', ?_⟩
  have := (hdiv n2 k2 n3 k3 [1] [2] (by decide) (by decide) (by rw [l1]; exact .cons (by decide) .nil) (by rw [l2]; exact .cons (by decide) .nil) (by rw [l3]; exact .cons (by decide) .nil)
    (by rw [l4]; exact .cons (by decide) .nil) (by decide) (by decide) _ rfl text r hg hr).1 text' r' hg' hr'
  rw [l1, l2, l3, l4] at this
  exact this
end Wick
end Wicked
