import Verif.Spec.CCEquations
import Verif.Props.SameResidual
/-! # C84, C95: the many-body equations, without the generated code -/
namespace Wicked
open CppLt CppEq Rational Lin Equiv

namespace Wick
section
variable {Ω R A : Type} [Inhabited Ω] [DecidableEq Ω] [CommRing R] [Ring A] [Algebra R A] [Algebra ℚ R] [Algebra ℚ A] [IsScalarTower ℚ R A]

/-- **C84**, the equations: the many-body equations of the result of `contract` are equations for the matrix elements of the operator expression. All spaces are occupied or unoccupied. For every key with a number of indices in the window of ranks,
all occupied orbitals `u` and unoccupied orbitals `l` of its spaces: the matrix element between the vacuum and the determinant excited from `u` to `l` is what the equations of the key give, antisymmetrised over the indices of
each space, and zero if there are none. Missing: products with three alike contractions (C50). -/
theorem C84_equations_space_partial (hist : List RegOp) {label : Str} {cfg : WickCfg} {E : OpExpr} {f : Rational} {minr maxr : Int} {e : Expr} :
    let o := runReg OSI.empty hist
    (∀ s ∈ o.spaces, isAlpha s.label = true) →
    o.spaces.length ≤ 8 → (∀ q ∈ E, q.1 ≠ [] ∧ Canon q.2 ∧ ∀ p ∈ q.1, p.Valid o.spaces.length ∧ ∀ c ∈ p.label, isWord c = true) → Canon f →
    contractExpr o cfg f E minr maxr = .ok e → (∀ p ∈ e, p.1.allIdx.toFinset.card ≤ 52) → (∀ q ∈ E, NoTriples o q.1) →
    ∀ (v : OrbSystem Ω R A) (dom : Char → Finset Ω) (hole : Ω → Bool) (φ : A →ₗ[R] R), v.Antisymmetric → IsCAR v.op → v.Vacuum o hole → IsVacuumExpectation v.op hole φ →
    (∀ (n : Nat) s, o.spaces[n]? = some s → dom s.label = v.dom n) →
    ∃ m, e.toManybody o label = .ok m ∧ ∀ (n k : Nat → Nat) (u l : List Ω), minr ≤ u.length + l.length → u.length + l.length ≤ maxr →
      List.Forall₂ (· ∈ ·) u ((repeatLabels o n).map dom) → List.Forall₂ (· ∈ ·) l ((repeatLabels o k).map dom) → (∀ x ∈ u, hole x = true) → (∀ x ∈ l, hole x = false) →
        φ (bra v.op u l * (toRat f • (E.map (fun q => toRat q.2 • (q.1.map (v.opValue hole o.spaces.length)).prod)).sum)) =
          antisymmetrized (repeatLabels o n) (repeatLabels o k) (equationsElement v (equationsOf m (spaceKey o n k))) u l := by
  intro o hal h8 hE hf hc hb h2 v dom hole φ hv hcar hvac hφ hdom
  have hcomp : ∀ p ∈ e, p.1.Compilable o := by
    intro p hp
    obtain ⟨q, hq, e', hc', p', hp', he⟩ := contractExpr_mem hc p hp
    have := contract_compilable h8 (fun r hr => ((hE q hq).2.2 r hr).1) (hE q hq).1 (fun r hr => ((hE q hq).2.2 r hr).2) (canon_mul hf (hE q hq).2.1) hc' hp' (by
      rw [he]; exact hb p hp)
    rw [he] at this
    exact this
  have hreg : ∀ p ∈ e, OpsRegistered o p.1 := by
    intro p hp a ha
    have := (hcomp p hp).registered a.index (List.mem_append_left _ (List.mem_map_of_mem ha))
    unfold Index.Registered at this
    unfold OSI.numSpaces
    omega
  obtain ⟨m, hm, hnd, hk, _⟩ := C55_partition label hreg
  refine ⟨m, hm, fun n k u l hmin hmax hu hl hhu hhl => ?_⟩
  have hbar : ∀ s ∈ o.spaces, s.label ≠ '|' := fun s hs h => absurd (hal s hs) (by rw [h]; decide)
  have hd : ∀ s ∈ o.spaces, ∀ s' ∈ o.spaces, s.label ≠ s'.label → ∀ x ∈ dom s.label, x ∉ dom s'.label := by
    intro s hs s' hs' hne x hx hx'
    obtain ⟨i, hi, ei⟩ := List.mem_iff_getElem.1 hs
    obtain ⟨j, hj, ej⟩ := List.mem_iff_getElem.1 hs'
    rw [hdom i s (by rw [List.getElem?_eq_getElem hi, ei])] at hx
    rw [hdom j s' (by rw [List.getElem?_eq_getElem hj, ej])] at hx'
    exact hvac.disjoint i j hi hj (fun h => hne (by subst h; rw [← ei, ← ej])) x hx hx'
  have hkeys : ∀ q ∈ m.map (fun q => (q.1, equationsElement v q.2)), ∃ n k, q.1 = spaceKey o n k := by
    intro q hq
    obtain ⟨q', hq', rfl⟩ := List.mem_map.1 hq
    obtain ⟨p, _, e⟩ := (hk q'.1).1 (List.mem_map_of_mem hq')
    exact ⟨_, _, e.symm⟩
  have hfst : (m.map (fun q => (q.1, equationsElement v q.2))).map Prod.fst = m.map Prod.fst := by rw [List.map_map]; rfl
  have hproj := _root_.Wicked.C84_projection (φ := φ) hist hcar hφ dom hbar hd (m.map (fun q => (q.1, equationsElement v q.2))) (by rw [hfst]; exact hnd) hkeys n k u l hu hl hhu hhl
  have hsum : ((m.map (fun q => (q.1, equationsElement v q.2))).map (fun q => keyOperator dom (normalProd hole v.op) q.1 q.2)).sum = Lin.eval (v.normalValue hole) e := by
    rw [List.map_map]
    exact manybody_arrays_value hbar hcomp hreg toRat v dom (normalProd hole v.op) hdom hm
  have hval : φ (bra v.op u l * Lin.eval (v.normalValue hole) e) = φ (bra v.op u l * (toRat f • (E.map (fun q => toRat q.2 • (q.1.map (v.opValue hole o.spaces.length)).prod)).sum)) :=
    Wick.C84_window_partial h8 (fun q hq p hp => ((hE q hq).2.2 p hp).1) h2 (fun q hq => (hE q hq).2.1) hf hc hv hcar hvac
      (ψ := φ ∘ₗ LinearMap.mulLeft R (bra v.op u l)) (fun w hw => bra_normalProd_length hcar hφ hhu hhl (by omega))
  rw [hsum, hval, hfst] at hproj
  unfold equationsOf
  cases hfind : m.find? (fun q => decide (q.1 = spaceKey o n k)) with
  | some q =>
    have h1 : q.1 = spaceKey o n k := by simpa using List.find?_some hfind
    have h3 := List.mem_of_find?_eq_some hfind
    exact hproj.1 (equationsElement v q.2) (List.mem_map.2 ⟨q, h3, by rw [h1]⟩)
  | none =>
    rw [hproj.2 (by
      intro h
      obtain ⟨q, hq, e⟩ := List.mem_map.1 h
      exact (List.find?_eq_none.1 hfind) q hq (decide_eq_true e))]
    simp [antisymmetrized, equationsElement]

/-- **C84**, the equations, spaces `o` and `v`: the many-body equations of the result of `contract` are equations for the matrix elements of the operator expression. There are spaces `o` and `v`, and all spaces are occupied or unoccupied.
For all `n` and `k` with `n + k` in the window of ranks, all occupied orbitals `u` in `o` and unoccupied orbitals `l` in `v`: the matrix element between the vacuum and the determinant excited from `u` to `l` is what the equations of the
key `o...o|v...v` give, antisymmetrised, and zero if there are none. Missing: products with three alike contractions (C50). -/
theorem C84_equations_partial (hist : List RegOp) {label : Str} {cfg : WickCfg} {E : OpExpr} {f : Rational} {minr maxr : Int} {e : Expr} :
    let o := runReg OSI.empty hist
    (∀ s ∈ o.spaces, isAlpha s.label = true) → (∃ s ∈ o.spaces, s.label = 'o') → (∃ s ∈ o.spaces, s.label = 'v') →
    o.spaces.length ≤ 8 → (∀ q ∈ E, q.1 ≠ [] ∧ Canon q.2 ∧ ∀ p ∈ q.1, p.Valid o.spaces.length ∧ ∀ c ∈ p.label, isWord c = true) → Canon f →
    contractExpr o cfg f E minr maxr = .ok e → (∀ p ∈ e, p.1.allIdx.toFinset.card ≤ 52) → (∀ q ∈ E, NoTriples o q.1) →
    ∀ (v : OrbSystem Ω R A) (dom : Char → Finset Ω) (hole : Ω → Bool) (φ : A →ₗ[R] R), v.Antisymmetric → IsCAR v.op → v.Vacuum o hole → IsVacuumExpectation v.op hole φ →
    (∀ (n : Nat) s, o.spaces[n]? = some s → dom s.label = v.dom n) →
    ∃ m, e.toManybody o label = .ok m ∧ ∀ n k : Nat, minr ≤ n + k → n + k ≤ maxr →
      ∀ u l : List Ω, u.length = n → l.length = k → (∀ x ∈ u, x ∈ dom 'o' ∧ hole x = true) → (∀ x ∈ l, x ∈ dom 'v' ∧ hole x = false) →
        φ (bra v.op u l * (toRat f • (E.map (fun q => toRat q.2 • (q.1.map (v.opValue hole o.spaces.length)).prod)).sum)) =
          antisymmetrizer 0 n (antisymmetrizer n k (equationsElement v (equationsOf m (List.replicate n 'o' ++ '|' :: List.replicate k 'v')))) (u ++ l) := by
  intro o hal ho hvv h8 hE hf hc hb h2 v dom hole φ hv hcar hvac hφ hdom
  obtain ⟨m, hm, h⟩ := C84_equations_space_partial (label := label) hist hal h8 hE hf hc hb h2 v dom hole φ hv hcar hvac hφ hdom
  refine ⟨m, hm, fun n k hmin hmax u l hun hlk hu hl => ?_⟩
  have hI : RegInv o := regInv_run hist _ regInv_empty
  obtain ⟨so, hso, hlo⟩ := ho
  obtain ⟨io, hio, rfl⟩ := List.mem_iff_getElem.1 hso
  obtain ⟨sv, hsv, hlv⟩ := hvv
  obtain ⟨iv, hiv, rfl⟩ := List.mem_iff_getElem.1 hsv
  have eo := repeatLabels_single hI (List.getElem?_eq_getElem hio) n
  have ev := repeatLabels_single hI (List.getElem?_eq_getElem hiv) k
  rw [hlo] at eo
  rw [hlv] at ev
  have ekey : spaceKey o (fun i => if i = io then n else 0) (fun i => if i = iv then k else 0) = List.replicate n 'o' ++ '|' :: List.replicate k 'v' := by
    rw [spaceKey, eo, ev, List.reverse_replicate]
  have hF : ∀ (c : Char) (n : Nat) (u : List Ω), u.length = n → (∀ x ∈ u, x ∈ dom c) → List.Forall₂ (· ∈ ·) u ((List.replicate n c).map dom) := by
    intro c n u hn hu
    subst hn
    rw [List.map_replicate]
    induction u with
    | nil => exact .nil
    | cons a u ih => exact .cons (hu a (by simp)) (ih (fun x hx => hu x (by simp [hx])))
  have h := h (fun i => if i = io then n else 0) (fun i => if i = iv then k else 0) u l (by omega) (by omega) (by rw [eo]; exact hF _ _ _ hun (fun x hx => (hu x hx).1))
    (by rw [ev]; exact hF _ _ _ hlk (fun x hx => (hl x hx).1)) (fun x hx => (hu x hx).2) (fun x hx => (hl x hx).2)
  rw [ekey, eo, ev] at h
  rw [h]
  subst hun; subst hlk
  exact antisymmetrized_block _ _ _ _ _

/-- **C95**, the equations of one division: a program builds an operator expression from calls of `gen_op` (`NoTriple`: an operator of rank three or higher creates in no space in which another annihilates) with `+`, `-`, `@`, scalars, `commutator` and
`bch_series`. The many-body equations of a key give, antisymmetrised over the indices of each space, exactly the matrix elements of the operator that the program stands for - an operator defined with
sets of orbitals, without spaces; where there are no equations for the key, these matrix elements are zero. Missing: other operators of rank three and higher (C50). -/
theorem C95_equations_partial {α : Type} (hist : List RegOp) (hok : allOk OSI.empty hist) {label : Str} {cfg : WickCfg} {P : GenProg α} {letters : α → Str} {S : α → Finset Ω} {E : OpExpr} {f : Rational}
    {minr maxr : Int} {e : Expr} :
    let o := runReg OSI.empty hist
    (∀ s ∈ o.spaces, isAlpha s.label = true) → o.spaces.length ≤ 8 → Canon f → P.NonZero → P.NoTriple letters → (∀ lab ∈ P.labels, ∀ c ∈ lab, isWord c = true) → P.run o letters = .ok E →
    contractExpr o cfg f E minr maxr = .ok e → (∀ p ∈ e, p.1.allIdx.toFinset.card ≤ 52) →
    ∀ (v : OrbSystem Ω R A) (dom : Char → Finset Ω) (hole : Ω → Bool) (φ : A →ₗ[R] R), Names o v letters S → v.Antisymmetric → IsCAR v.op → v.Vacuum o hole → IsVacuumExpectation v.op hole φ →
    (∀ (n : Nat) s, o.spaces[n]? = some s → dom s.label = v.dom n) →
    ∃ m, e.toManybody o label = .ok m ∧ ∀ (n k : Nat → Nat) (u l : List Ω), minr ≤ u.length + l.length → u.length + l.length ≤ maxr →
      List.Forall₂ (· ∈ ·) u ((repeatLabels o n).map dom) → List.Forall₂ (· ∈ ·) l ((repeatLabels o k).map dom) → (∀ x ∈ u, hole x = true) → (∀ x ∈ l, hole x = false) →
        antisymmetrized (repeatLabels o n) (repeatLabels o k) (equationsElement v (equationsOf m (spaceKey o n k))) u l = φ (bra v.op u l * (toRat f • P.meaning v.T (normalProd hole v.op) S)) := by
  intro o hal h8 hf hP h2 hlab hE hc hb v dom hole φ hn hv hcar hvac hφ hdom
  obtain ⟨E', h1, hr⟩ := run_ok hist hok h8 hn hv (C81_normal_product hcar hole) hP
  rw [hE] at h1
  cases h1
  have hform := run_labels' hist hok h8 hn.nodup hn.alpha (fun lab => ∀ c ∈ lab, isWord c = true) hlab hE
  have hval : (E.map (fun q => toRat q.2 • (q.1.map (v.opValue hole o.spaces.length)).prod)).sum = P.meaning v.T (normalProd hole v.op) S := by
    rw [← hr.value, valHomOf_expr]
    rfl
  obtain ⟨m, hm, h⟩ := C84_equations_space_partial (label := label) hist (E := E) hal h8
    (fun q hq => ⟨(hform q hq).1, (built_wf hr.built).toOk.canon q hq, fun p hp => ⟨((hr.words q hq).1 p hp).1, (hform q hq).2 p hp⟩⟩) hf hc hb
    (run_noTriples hist hok h8 hn.nodup hn.alpha h2 hE) v dom hole φ hv hcar hvac hφ hdom
  rw [← hval]
  exact ⟨m, hm, fun n k u l h1 h2 h3 h4 h5 h6 => (h n k u l h1 h2 h3 h4 h5 h6).symm⟩
end

section
variable {Ω R α : Type} [Inhabited Ω] [LinearOrder Ω] [CommRing R] [Algebra ℚ R]

/-- **C95**, the equations of two divisions: the same program is run with two registries that divide the orbitals into spaces in different ways (spin orbitals or their alpha and beta halves, with or without a
separate core), the expressions are contracted within the same window of ranks and turned into many-body equations. For all antisymmetric tensors and all occupied orbitals `u` and virtual orbitals `l` that fit a key of each
registry, the equations of the two keys, antisymmetrised over the indices of each space, give the same element (zero where a key has no equations). Missing: operators of rank three and higher in general, where the claim is
false of the code (`C94_three_body_depends`). -/
theorem C95_equations_division_partial (hist hist' : List RegOp) (hok : allOk OSI.empty hist) (hok' : allOk OSI.empty hist') {label label' : Str} {cfg cfg' : WickCfg} {P : GenProg α} {letters letters' : α → Str}
    {S : α → Finset Ω} {E E' : OpExpr} {f : Rational} {minr maxr : Int} {e e' : Expr} :
    let o := runReg OSI.empty hist
    let o' := runReg OSI.empty hist'
    (∀ s ∈ o.spaces, isAlpha s.label = true) → (∀ s ∈ o'.spaces, isAlpha s.label = true) → o.spaces.length ≤ 8 → o'.spaces.length ≤ 8 →
    Canon f → P.NonZero → P.NoTriple letters → P.NoTriple letters' → (∀ lab ∈ P.labels, ∀ c ∈ lab, isWord c = true) →
    P.run o letters = .ok E → P.run o' letters' = .ok E' →
    contractExpr o cfg f E minr maxr = .ok e → contractExpr o' cfg' f E' minr maxr = .ok e' →
    (∀ p ∈ e, p.1.allIdx.toFinset.card ≤ 52) → (∀ p ∈ e', p.1.allIdx.toFinset.card ≤ 52) →
    ∀ (T : Str → List Ω → List Ω → R) (space space' : Int → Finset Ω) (dom dom' : Char → Finset Ω) (hole : Ω → Bool),
    let v : OrbSystem Ω R (Module.End R (FockSpace Ω R)) := ⟨space, T, fockOp R hole⟩
    let v' : OrbSystem Ω R (Module.End R (FockSpace Ω R)) := ⟨space', T, fockOp R hole⟩
    Names o v letters S → Names o' v' letters' S → v.Antisymmetric → v.Vacuum o hole → v'.Vacuum o' hole →
    (∀ (n : Nat) s, o.spaces[n]? = some s → dom s.label = space n) → (∀ (n : Nat) s, o'.spaces[n]? = some s → dom' s.label = space' n) →
    ∃ m m', e.toManybody o label = .ok m ∧ e'.toManybody o' label' = .ok m' ∧ ∀ (n k n' k' : Nat → Nat) (u l : List Ω), minr ≤ u.length + l.length → u.length + l.length ≤ maxr →
      List.Forall₂ (· ∈ ·) u ((repeatLabels o n).map dom) → List.Forall₂ (· ∈ ·) l ((repeatLabels o k).map dom) →
      List.Forall₂ (· ∈ ·) u ((repeatLabels o' n').map dom') → List.Forall₂ (· ∈ ·) l ((repeatLabels o' k').map dom') → (∀ x ∈ u, hole x = true) → (∀ x ∈ l, hole x = false) →
        antisymmetrized (repeatLabels o n) (repeatLabels o k) (equationsElement v (equationsOf m (spaceKey o n k))) u l =
          antisymmetrized (repeatLabels o' n') (repeatLabels o' k') (equationsElement v' (equationsOf m' (spaceKey o' n' k'))) u l := by
  intro o o' hal hal' h8 h8' hf hP h2 h2' hlab hE hE' hc hc' hb hb' T space space' dom dom' hole v v' hn hn' hv hvac hvac' hdom hdom'
  obtain ⟨m, hm, h⟩ := C95_equations_partial (label := label) hist hok hal h8 hf hP h2 hlab hE hc hb v dom hole (fockExpectation R) hn hv (fock_car hole) hvac (fock_expectation hole) hdom
  obtain ⟨m', hm', h'⟩ := C95_equations_partial (label := label') hist' hok' hal' h8' hf hP h2' hlab hE' hc' hb' v' dom' hole (fockExpectation R) hn' hv (fock_car hole) hvac' (fock_expectation hole) hdom'
  exact ⟨m, m', hm, hm', fun n k n' k' u l h1 h2 hu hl hu' hl' hhu hhl => (h n k u l h1 h2 hu hl hhu hhl).trans (h' n' k' u l h1 h2 hu' hl' hhu hhl).symm⟩
end

theorem equations_ex (hist : List RegOp) (letters : Fin 3 → Str)
    (h : (match (prog4.run (runReg OSI.empty hist) letters >>= fun E => contractExpr (runReg OSI.empty hist) {} (Rational.ofInt 1) E 0 4 >>= fun e => e.toManybody (runReg OSI.empty hist) ['R'] >>= fun m =>
      pure (decide ((∀ p ∈ e, p.1.allIdx.toFinset.card ≤ 52) ∧ equationsOf m "o|v".toList ≠ []))) with | .ok b => b | .error _ => false) = true) :
    ∃ E e m, prog4.run (runReg OSI.empty hist) letters = .ok E ∧ contractExpr (runReg OSI.empty hist) {} (Rational.ofInt 1) E 0 4 = .ok e ∧ e.toManybody (runReg OSI.empty hist) ['R'] = .ok m ∧
      (∀ p ∈ e, p.1.allIdx.toFinset.card ≤ 52) ∧ equationsOf m "o|v".toList ≠ [] := by
  split at h
  swap
  · cases h
  next b hb =>
  subst h
  obtain ⟨E, hE, hx⟩ := bind_ok' hb
  obtain ⟨e, he, hx⟩ := bind_ok' hx
  obtain ⟨m, hm, hx⟩ := bind_ok' hx
  have := Except.ok.inj hx
  exact ⟨E, e, m, hE, he, hm, of_decide_eq_true this⟩

-- all hypotheses of the theorems hold together: two spaces and three spaces (with a core) divide four orbitals; both contractions have equations for the excitation of the occupied orbital 1 to the virtual
-- orbital 2, and these give the same matrix element
example : ∃ E e m E' e' m', prog4.run (runReg OSI.empty srHistory) letters2 = .ok E ∧ contractExpr (runReg OSI.empty srHistory) {} (Rational.ofInt 1) E 0 4 = .ok e ∧
    e.toManybody (runReg OSI.empty srHistory) ['R'] = .ok m ∧ equationsOf m "o|v".toList ≠ [] ∧
    prog4.run (runReg OSI.empty coreHistory) letters3 = .ok E' ∧ contractExpr (runReg OSI.empty coreHistory) {} (Rational.ofInt 1) E' 0 4 = .ok e' ∧
    e'.toManybody (runReg OSI.empty coreHistory) ['R'] = .ok m' ∧ equationsOf m' "o|v".toList ≠ [] ∧
    antisymmetrized ['o'] ['v'] (equationsElement (four dom2) (equationsOf m "o|v".toList)) [1] [2] =
      antisymmetrized ['o'] ['v'] (equationsElement (four dom3) (equationsOf m' "o|v".toList)) [1] [2] := by
  obtain ⟨E, e, m₁, hE, he, hm₁, hb, hs⟩ := equations_ex srHistory letters2 (by decide +kernel)
  obtain ⟨E', e', m₁', hE', he', hm₁', hb', hs'⟩ := equations_ex coreHistory letters3 (by decide +kernel)
  have hok : allOk OSI.empty srHistory := by refine ⟨?_, ?_, trivial⟩ <;> decide +kernel
  have hok' : allOk OSI.empty coreHistory := by refine ⟨?_, ?_, ?_, trivial⟩ <;> decide +kernel
  have hdom2 : ∀ (n : Nat) s, (runReg OSI.empty srHistory).spaces[n]? = some s → domL2 s.label = dom2 n := by
    intro n s hs
    match n with
    | 0 => cases hs; decide
    | 1 => cases hs; decide
    | n + 2 => cases hs
  have hdom3 : ∀ (n : Nat) s, (runReg OSI.empty coreHistory).spaces[n]? = some s → domL3 s.label = dom3 n := by
    intro n s hs
    match n with
    | 0 => cases hs; decide
    | 1 => cases hs; decide
    | 2 => cases hs; decide
    | n + 3 => cases hs
  obtain ⟨m, m', hm, hm', h⟩ := C95_equations_division_partial (R := ℚ) srHistory coreHistory hok hok' (label := ['R']) (label' := ['R']) (cfg := {}) (cfg' := {}) (P := prog4) (letters := letters2)
    (letters' := letters3) (S := orbs4) (f := Rational.ofInt 1) (minr := 0) (maxr := 4)
    (by decide) (by decide) (by decide) (by decide) (canon_ofInt 1) ⟨trivial, trivial⟩ (.of_rank (by decide)) (.of_rank (by decide)) (by decide) hE hE' he he' hb hb'
    (four dom2).T dom2 dom3 domL2 domL3 hole4 names2 names3 (four_anti dom2) vac2 vac3 hdom2 hdom3
  rw [hm] at hm₁
  rw [hm'] at hm₁'
  cases hm₁
  cases hm₁'
  have l1 : repeatLabels (runReg OSI.empty srHistory) n2 = ['o'] := by decide
  have l2 : repeatLabels (runReg OSI.empty srHistory) k2 = ['v'] := by decide
  have l3 : repeatLabels (runReg OSI.empty coreHistory) n3 = ['o'] := by decide
  have l4 : repeatLabels (runReg OSI.empty coreHistory) k3 = ['v'] := by decide
  have e1 : spaceKey (runReg OSI.empty srHistory) n2 k2 = "o|v".toList := by rw [spaceKey, l1, l2]; decide
  have e2 : spaceKey (runReg OSI.empty coreHistory) n3 k3 = "o|v".toList := by rw [spaceKey, l3, l4]; decide
  refine ⟨E, e, m₁, E', e', m₁', hE, he, hm, hs, hE', he', hm', hs', ?_⟩
  have := h n2 k2 n3 k3 [1] [2] (by decide) (by decide) (by rw [l1]; exact .cons (by decide) .nil) (by rw [l2]; exact .cons (by decide) .nil) (by rw [l3]; exact .cons (by decide) .nil)
    (by rw [l4]; exact .cons (by decide) .nil) (by decide) (by decide)
  rw [l1, l2, l3, l4, e1, e2] at this
  exact this
end Wick
end Wicked
