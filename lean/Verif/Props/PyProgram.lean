import Verif.Spec.PyProgram
import Verif.Props.PyEinsum
import Verif.Props.AmbitProgram
import Verif.Props.WickProduct
import Verif.Props.WickGeneral
/-! # C67: the Python program for all equations of a key, with a bound for the error of the rounded factors -/
namespace Wicked
open CppLt CppEq Rational

section
variable {Ω R A : Type} [Inhabited Ω] [DecidableEq Ω] [CommRing R] [Ring A] [Algebra R A]

theorem py_runs [Algebra ℚ R] {o : OSI} {fmt : Rational → Str} {label : Str} {v : OrbSystem Ω R A} {arr : Str → Str → List Ω → R} {dom : Char → Finset Ω}
    (val : Rational → ℚ) (l : Expr) (hl : ∀ p ∈ l, ∃ text L, compileEinsumPy o fmt (manybodyEquation label p.1 p.2) = .ok text ∧ readEinsum1 text = some L ∧
      L.target = label ∧ L.Accepted ∧ signedVal L.factor = some (val p.2) ∧ ∀ x, L.element arr dom x = (manybodyEquation label p.1 p.2).element v (lhsOf label p.1) x) :
    ∃ lines, (l.map (fun p => manybodyEquation label p.1 p.2)).mapM (m := Except Fault) (fun q => compileEinsumPy o fmt q) = .ok lines ∧
      ∀ s, Py1Runs arr dom lines s (fun name x => if name = label then
        s name x + (l.map (fun p => algebraMap ℚ R (val p.2) * (manybodyEquation label p.1 p.2).element v (lhsOf label p.1) x)).sum else s name x) := by
  induction l with
  | nil => exact ⟨[], rfl, fun s => by funext name x; simp⟩
  | cons p l ih =>
    obtain ⟨lines, h1, h2⟩ := ih (fun q hq => hl q (by simp [hq]))
    obtain ⟨text, L, hc, hr, ht, ha, hf, he⟩ := hl p (by simp)
    refine ⟨text :: lines, ?_, fun s => ?_⟩
    · rw [List.map_cons, List.mapM_cons, hc, h1]; rfl
    · refine ⟨L, val p.2, hr, ha, hf, ?_⟩
      have := h2 (fun name x => if name = L.target then s name x + algebraMap ℚ R (val p.2) * L.element arr dom x else s name x)
      convert this using 1
      funext name x
      by_cases hn : name = label
      · simp only [hn, ht, if_true, List.map_cons, List.sum_cons, he, add_assoc]
      · simp [hn, ht]

/-- **C67**, the program of all equations of a key: for every expression whose terms can be compiled, over a registry with enough one-letter index names, compiling the equations of a key other than that of the
scalars raises an exception; the lines generated for the scalar equations, run one after the other, leave in the variable a number whose distance from the exact sum of the equations is at most
`10^-8` times the sum of the absolute values of the contractions. -/
theorem C67_program_error {S : Type} [Field S] [LinearOrder S] [IsStrictOrderedRing S] [Algebra ℚ R] (abv : AbsoluteValue R S)
    (habv : ∀ c : ℚ, abv (algebraMap ℚ R c) = ((|c| : ℚ) : S)) (hist : List RegOp) {fmt : Rational → Str} {label : Str} {e : Expr} :
    let o := runReg OSI.empty hist
    (∀ s ∈ o.spaces, isAlpha s.label = true ∧ ∀ name ∈ s.indices, ∃ c, name = [c] ∧ isAlpha c = true) → (∀ c ∈ label, isWord c = true) → PrintsEight fmt →
    (∀ p ∈ e, p.1.Compilable o ∧ ∀ (n : Nat) s, o.spaces[n]? = some s → (p.1.allIdx.toFinset.filter (fun i => i.space = (n : Int))).card ≤ s.indices.length) →
    (∀ p ∈ e, Canon p.2) →
    ∀ (v : OrbSystem Ω R A) (arr : Str → Str → List Ω → R) (dom : Char → Finset Ω),
    (∀ p ∈ e, ∀ y ∈ p.1.tensors, ∀ l u, l.length = y.lower.length → u.length = y.upper.length → arr y.label (spaceText o y) (u ++ l) = v.T y.label l u) →
    (∀ (n : Nat) s, o.spaces[n]? = some s → dom s.label = v.dom n) →
    ∃ m, e.toManybody o label = .ok m ∧ ∀ q ∈ m,
      (q.1 ≠ ['|'] → q.2.mapM (m := Except Fault) (fun q => compileEinsumPy o fmt q) = .error .throw) ∧
      (q.1 = ['|'] → ∃ (lines : List Str) (value : List Ω → R), q.2.mapM (m := Except Fault) (fun q => compileEinsumPy o fmt q) = .ok lines ∧
        Py1Runs arr dom lines (fun _ _ => 0) (fun name x => if name = label then value x else 0) ∧
        ∀ x, abv (value x - (q.2.map (fun eq => algebraMap ℚ R (toRat eq.factor) * (eq.lhs.tensors.map (fun t => eq.element v t x)).sum)).sum) ≤
          1 / 10 ^ 8 * (q.2.map (fun eq => abv (eq.lhs.tensors.map (fun t => eq.element v t x)).sum)).sum) := by
  intro o hal hlab hfmt hC hcoef v arr dom harr hdom
  have hbar : ∀ s ∈ o.spaces, s.label ≠ '|' := fun s hs h => absurd (hal s hs).1 (by rw [h]; decide)
  have hreg : ∀ p ∈ e, OpsRegistered o p.1 := by
    intro p hp a ha
    have := (hC p hp).1.registered a.index (List.mem_append_left _ (List.mem_map_of_mem ha))
    unfold Index.Registered at this
    unfold OSI.numSpaces
    omega
  have hein : ∀ p ∈ e, ∀ i ∈ einsumIndices (lhsOf label p.1) (manybodyEquation label p.1 p.2), i.Registered o :=
    fun p hp i hi => (hC p hp).1.registered i ((einsumIndices_allIdx label p.1 p.2 i).1 hi)
  obtain ⟨m, hm, hnd, hk, hq, hperm⟩ := C55_partition label hreg
  refine ⟨m, hm, fun q hqm => ⟨fun hne => ?_, fun hsc => ?_⟩⟩
  · obtain ⟨p0, hp0, hk0⟩ := (hk q.1).1 (List.mem_map_of_mem hqm)
    have hall : ∀ p ∈ e.filter (fun p => decide (manybodyKey o p.1 = q.1)), compileEinsumPy o fmt (manybodyEquation label p.1 p.2) = .error .throw := by
      intro p hp
      obtain ⟨hp, hpk⟩ := List.mem_filter.1 hp
      have hpk := of_decide_eq_true hpk
      refine C67_nonscalar_fails (t := lhsOf label p.1) (ts := []) rfl (hein p hp) (fun h0 => hne ?_)
      have hops : p.1.ops = [] := by
        have h0 : ((p.1.ops.filter (fun a => !a.isCre)).map SQOp.index).reverse ++ (p.1.ops.filter (·.isCre)).map SQOp.index = [] := h0
        obtain ⟨h1, h2⟩ := List.append_eq_nil_iff.1 h0
        rw [(hC p hp).1.creFirst, List.map_eq_nil_iff.1 h2, List.map_eq_nil_iff.1 (List.reverse_eq_nil_iff.1 h1)]
        rfl
      rw [← hpk]
      have hz : ∀ b, repeatLabels o (opCount p.1 b) = [] := by
        intro b
        apply List.eq_nil_iff_forall_not_mem.2
        intro c hc
        simp [repeatLabels, opCount, hops] at hc
      show repeatLabels o (opCount p.1 false) ++ '|' :: (repeatLabels o (opCount p.1 true)).reverse = ['|']
      rw [hz, hz]; rfl
    rw [hq q hqm]
    have hmem : p0 ∈ e.filter (fun p => decide (manybodyKey o p.1 = q.1)) := List.mem_filter.2 ⟨hp0, decide_eq_true hk0⟩
    cases hf : e.filter (fun p => decide (manybodyKey o p.1 = q.1)) with
    | nil => rw [hf] at hmem; exact absurd hmem (by simp)
    | cons p l =>
      rw [List.map_cons, List.mapM_cons, hall p (by rw [hf]; simp)]
      rfl
  · have key : ∀ p ∈ e.filter (fun p => decide (manybodyKey o p.1 = q.1)), ∃ text L, compileEinsumPy o fmt (manybodyEquation label p.1 p.2) = .ok text ∧ readEinsum1 text = some L ∧
        L.target = label ∧ L.Accepted ∧ signedVal L.factor = some (signedLit fmt p.2) ∧
        ∀ x, L.element arr dom x = (manybodyEquation label p.1 p.2).element v (lhsOf label p.1) x := by
      intro p hp
      obtain ⟨hp, hpk⟩ := List.mem_filter.1 hp
      have hpk := of_decide_eq_true hpk
      obtain ⟨hu, hlo⟩ := key_labels hbar label (hC p hp).1.cre (hC p hp).1.ann (hreg p hp)
      rw [hpk, hsc] at hu hlo
      have hu : (lhsOf label p.1).upper = [] := List.map_eq_nil_iff.1 hu.symm
      have hlo : (lhsOf label p.1).lower = [] := List.map_eq_nil_iff.1 hlo.symm
      obtain ⟨text, L, h1, h2, h3, h4, h5, h6⟩ := (C67_scalar_partial hist fmt (manybodyEquation label p.1 p.2) (lhsOf label p.1) [] hal rfl hu hlo (hein p hp)
        (by
          intro y hy
          rcases List.mem_cons.1 hy with rfl | hy
          · exact hlab
          · exact (hC p hp).1.words y hy)
        (hC p hp).1.some
        (by
          have hd : ∀ s : Str, (∀ x ∈ s, isDigit x = true) → ' ' ∉ s := fun s hs h => absurd (hs _ h) (by decide)
          have hfx : ∀ s, IsFixed 8 s → ' ' ∉ s := by
            rintro s ⟨a, b, hab, _, _, ha, hb⟩ hsp
            rcases hab with hab | hab <;>
            · rw [hab] at hsp
              simp at hsp
              rcases hsp with h | h
              · exact hd a ha h
              · exact hd b hb h
          show ' ' ∉ fmt p.2
          rcases (hfmt p.2 (hcoef p hp)).1 with ⟨h1, _, h2⟩ | ⟨_, h2⟩
          · have := hfx _ h2
            cases hs : fmt p.2 with
            | nil => simp
            | cons c s =>
              rw [hs] at h1 this
              simp at h1 this
              subst h1
              simpa using this
          · exact hfx _ h2)).1 (by
          intro n s hs
          have hE : (einsumIndices (lhsOf label p.1) (manybodyEquation label p.1 p.2)).toFinset = p.1.allIdx.toFinset := by
            ext i
            rw [List.mem_toFinset, List.mem_toFinset, einsumIndices_allIdx]
          rw [hE]
          exact (hC p hp).2 n s hs)
      refine ⟨text, L, h1, h2, h3, h5, ?_, fun x => h6 v arr dom ⟨fun y hy => harr p hp y hy, hdom⟩ x⟩
      obtain ⟨_, x, hx, _⟩ := hfmt p.2 (hcoef p hp)
      rw [h4]
      show signedVal (fmt p.2) = some (signedLit fmt p.2)
      unfold signedLit
      rw [hx]; rfl
    obtain ⟨lines, hl, hr⟩ := py_runs (signedLit fmt) _ key
    have hq' := hq q hqm
    refine ⟨lines, fun x => (q.2.map (fun eq => algebraMap ℚ R (signedLit fmt eq.factor) * (eq.lhs.tensors.map (fun t => eq.element v t x)).sum)).sum, ?_, ?_, fun x => ?_⟩
    · rw [hq']; exact hl
    · convert hr (fun _ _ => 0) using 1
      funext name x
      by_cases hb : name = label
      · rw [if_pos hb, if_pos hb, zero_add, hq']; dsimp only; rw [List.map_map]
        congr 1
        apply List.map_congr_left
        intro p _
        show algebraMap ℚ R (signedLit fmt p.2) * ((manybodyEquation label p.1 p.2).element v (lhsOf label p.1) x + 0) = _
        rw [add_zero]
      · rw [if_neg hb, if_neg hb]
    · have := abv_rounded_sum abv habv (ε := 1 / 10 ^ 8) q.2 (fun eq => toRat eq.factor) (fun eq => signedLit fmt eq.factor) (by
        intro eq he
        rw [hq'] at he
        obtain ⟨p, hp, rfl⟩ := List.mem_map.1 he
        obtain ⟨_, x, hx, h⟩ := hfmt p.2 (hcoef p (List.mem_filter.1 hp).1)
        show |signedLit fmt p.2 - toRat p.2| < _
        unfold signedLit
        rw [hx]; exact h) (fun eq => (eq.lhs.tensors.map (fun t => eq.element v t x)).sum)
      have h8 : (((1 / 10 ^ 8 : ℚ)) : S) = 1 / 10 ^ 8 := by push_cast; rfl
      rw [h8] at this
      exact this
theorem element_scalar (v : OrbSystem Ω R A) (label : Str) (t : STerm) (c : Rational) (h : t.ops = []) : (manybodyEquation label t c).element v (lhsOf label t) [] = v.scalarValue t := by
  unfold Equation.element OrbSystem.scalarValue
  have hidx : (einsumIndices (lhsOf label t) (manybodyEquation label t c)).toFinset = t.allIdx.toFinset := by
    ext i
    rw [List.mem_toFinset, List.mem_toFinset, einsumIndices_allIdx]
  rw [hidx]
  apply sumOver_congr
  intro σ _
  rw [if_pos (by simp [lhsOf, h])]
  rfl

/-- **C67**, expressions without operators: all lines generated for the equations of the expression, run one after the other, leave a number in the variable that differs from the value of the expression by
at most `10^-8` times the sum of the absolute values of its terms without their coefficients. -/
theorem C67_scalar_program {S : Type} [Field S] [LinearOrder S] [IsStrictOrderedRing S] [Algebra ℚ R] (abv : AbsoluteValue R S)
    (habv : ∀ c : ℚ, abv (algebraMap ℚ R c) = ((|c| : ℚ) : S)) (hist : List RegOp) {fmt : Rational → Str} {label : Str} {e : Expr} :
    let o := runReg OSI.empty hist
    (∀ s ∈ o.spaces, isAlpha s.label = true ∧ ∀ name ∈ s.indices, ∃ c, name = [c] ∧ isAlpha c = true) → (∀ c ∈ label, isWord c = true) → PrintsEight fmt →
    (∀ p ∈ e, p.1.Compilable o ∧ ∀ (n : Nat) s, o.spaces[n]? = some s → (p.1.allIdx.toFinset.filter (fun i => i.space = (n : Int))).card ≤ s.indices.length) →
    (∀ p ∈ e, Canon p.2) → (∀ p ∈ e, p.1.ops = []) →
    ∀ (v : OrbSystem Ω R A) (arr : Str → Str → List Ω → R) (dom : Char → Finset Ω),
    (∀ p ∈ e, ∀ y ∈ p.1.tensors, ∀ l u, l.length = y.lower.length → u.length = y.upper.length → arr y.label (spaceText o y) (u ++ l) = v.T y.label l u) →
    (∀ (n : Nat) s, o.spaces[n]? = some s → dom s.label = v.dom n) →
    ∃ m, e.toManybody o label = .ok m ∧ ∃ (lines : List Str) (value : List Ω → R), (m.flatMap Prod.snd).mapM (m := Except Fault) (fun q => compileEinsumPy o fmt q) = .ok lines ∧
      Py1Runs arr dom lines (fun _ _ => 0) (fun name x => if name = label then value x else 0) ∧
      abv (value [] - Lin.eval v.scalarValue e) ≤ 1 / 10 ^ 8 * (e.map (fun p => abv (v.scalarValue p.1))).sum := by
  intro o hal hlab hfmt hC hcoef hops v arr dom harr hdom
  obtain ⟨m, hm, h⟩ := C67_program_error abv habv hist (label := label) hal hlab hfmt hC hcoef v arr dom harr hdom
  have hreg : ∀ p ∈ e, OpsRegistered o p.1 := fun p hp a ha => by rw [hops p hp] at ha; cases ha
  obtain ⟨m', hm', hnd, hk, hq, hperm⟩ := C55_partition label hreg
  rw [hm] at hm'
  cases hm'
  have hkey : ∀ p ∈ e, manybodyKey o p.1 = ['|'] := by
    intro p hp
    have hz : ∀ b, repeatLabels o (opCount p.1 b) = [] := by
      intro b
      apply List.eq_nil_iff_forall_not_mem.2
      intro c hc
      simp [repeatLabels, opCount, hops p hp] at hc
    show repeatLabels o (opCount p.1 false) ++ '|' :: (repeatLabels o (opCount p.1 true)).reverse = ['|']
    rw [hz, hz]; rfl
  have hone : ∀ q ∈ m, q.1 = ['|'] := by
    intro q hqm
    obtain ⟨p, hp, he⟩ := (hk q.1).1 (List.mem_map_of_mem hqm)
    rw [← he, hkey p hp]
  refine ⟨m, hm, ?_⟩
  match m, hm, h, hnd, hk, hq, hperm, hone with
  | [], _, _, _, _, _, hperm, _ =>
    have he : e = [] := by
      have := hperm.symm.length_eq
      simpa using this
    subst he
    refine ⟨[], fun _ => 0, rfl, ?_, ?_⟩
    · show _ = _
      funext name x; simp
    · simp [Lin.eval]
  | [q], _, h, _, _, hq, _, hone =>
    obtain ⟨lines, value, h1, h2, h3⟩ := (h q (by simp)).2 (hone q (by simp))
    refine ⟨lines, value, by simpa using h1, h2, ?_⟩
    have hf : e.filter (fun p => decide (manybodyKey o p.1 = q.1)) = e := by
      apply List.filter_eq_self.2
      intro p hp
      rw [hkey p hp, hone q (by simp)]
      simp
    have hq2 := hq q (by simp)
    rw [hf] at hq2
    have h3 := h3 []
    rw [hq2, List.map_map, List.map_map] at h3
    have e1 : Lin.eval v.scalarValue e = (e.map ((fun eq => algebraMap ℚ R (toRat eq.factor) * (eq.lhs.tensors.map (fun t => eq.element v t [])).sum) ∘ fun p => manybodyEquation label p.1 p.2)).sum := by
      unfold Lin.eval
      congr 1
      apply List.map_congr_left
      intro p hp
      show _ = algebraMap ℚ R (toRat p.2) * ((manybodyEquation label p.1 p.2).element v (lhsOf label p.1) [] + 0)
      rw [element_scalar v label p.1 p.2 (hops p hp), add_zero, Algebra.smul_def]
    have e2 : (e.map (fun p => abv (v.scalarValue p.1))) = (e.map ((fun eq => abv (eq.lhs.tensors.map (fun t => eq.element v t [])).sum) ∘ fun p => manybodyEquation label p.1 p.2)) := by
      apply List.map_congr_left
      intro p hp
      show _ = abv ((manybodyEquation label p.1 p.2).element v (lhsOf label p.1) [] + 0)
      rw [element_scalar v label p.1 p.2 (hops p hp), add_zero]
    rw [e1, e2]
    exact h3
  | q :: q' :: m, _, _, hnd, _, _, _, hone =>
    exfalso
    have h1 := hone q (by simp)
    have h2 := hone q' (by simp)
    simp [h1, h2] at hnd

end

namespace Wick

section
variable {Ω R A : Type} [Inhabited Ω] [DecidableEq Ω] [CommRing R] [Ring A] [Algebra R A] [Algebra ℚ R] [Algebra ℚ A]

/-- **C67** and **C53**: the Python program of the full contractions of a product of operators computes its expectation value in the vacuum. For every product over occupied and unoccupied spaces in which no three alike
contractions are possible, every coefficient, all orbitals and antisymmetric tensors: the lines that `compile_einsum` generates for the equations of `contract(..., 0, 0)`, run one after the other, leave a number that
differs from the expectation value of the product by at most `10^-8` times the sum of the absolute values of the contractions. -/
theorem C67_expectation_program_partial {S : Type} [Field S] [LinearOrder S] [IsStrictOrderedRing S] (abv : AbsoluteValue R S)
    (habv : ∀ c : ℚ, abv (algebraMap ℚ R c) = ((|c| : ℚ) : S)) (hist : List RegOp) {fmt : Rational → Str} {label : Str} {cfg : WickCfg} {ops : OperatorProduct} {f : Rational} {e : Expr} :
    let o := runReg OSI.empty hist
    (∀ s ∈ o.spaces, isAlpha s.label = true ∧ ∀ name ∈ s.indices, ∃ c, name = [c] ∧ isAlpha c = true) → (∀ c ∈ label, isWord c = true) → PrintsEight fmt →
    o.spaces.length ≤ 8 → ops ≠ [] → (∀ p ∈ ops, p.Valid o.spaces.length ∧ ∀ c ∈ p.label, isWord c = true) → NoTriples o ops → Canon f →
    contract o cfg f ops 0 0 = .ok e →
    (∀ p ∈ e, p.1.allIdx.toFinset.card ≤ 52 ∧ ∀ (n : Nat) s, o.spaces[n]? = some s → (p.1.allIdx.toFinset.filter (fun i => i.space = (n : Int))).card ≤ s.indices.length) →
    ∀ (v : OrbSystem Ω R A) (arr : Str → Str → List Ω → R) (dom : Char → Finset Ω) (hole : Ω → Bool) (φ : A →ₗ[R] R),
    v.Antisymmetric → IsCAR v.op → v.Vacuum o hole → IsVacuumExpectation v.op hole φ →
    (∀ p ∈ e, ∀ y ∈ p.1.tensors, ∀ l u, l.length = y.lower.length → u.length = y.upper.length → arr y.label (spaceText o y) (u ++ l) = v.T y.label l u) →
    (∀ (n : Nat) s, o.spaces[n]? = some s → dom s.label = v.dom n) →
    ∃ m, e.toManybody o label = .ok m ∧ ∃ (lines : List Str) (value : List Ω → R), (m.flatMap Prod.snd).mapM (m := Except Fault) (fun q => compileEinsumPy o fmt q) = .ok lines ∧
      Py1Runs arr dom lines (fun _ _ => 0) (fun name x => if name = label then value x else 0) ∧
      abv (value [] - φ (toRat f • (ops.map (v.opValue hole o.spaces.length)).prod)) ≤ 1 / 10 ^ 8 * (e.map (fun p => abv (v.scalarValue p.1))).sum := by
  intro o hal hlab hfmt h8 hne hvo h2 hf hc hb v arr dom hole φ hv hcar hvac hφ harr hdom
  have hvo' := fun p hp => (hvo p hp).1
  obtain ⟨hops, hval⟩ := C53_vacuum_expectation_partial h8 hvo' h2 hf hc hv hcar hvac hφ
  rw [← hval]
  exact C67_scalar_program abv habv hist (label := label) hal hlab hfmt
    (fun p hp => ⟨contract_compilable h8 hvo' hne (fun p hp => (hvo p hp).2) hf hc hp (hb p hp).1, (hb p hp).2⟩)
    (contract_spec hf hc).choose_spec.2.1.toOk.canon hops v arr dom harr hdom

/-- **C67** and **C72**: the same for all reference states: spaces of all three types, density matrices and cumulants. -/
theorem C67_reference_program_partial {S : Type} [Field S] [LinearOrder S] [IsStrictOrderedRing S] (abv : AbsoluteValue R S)
    (habv : ∀ c : ℚ, abv (algebraMap ℚ R c) = ((|c| : ℚ) : S)) (hist : List RegOp) {fmt : Rational → Str} {label : Str} {cfg : WickCfg} {ops : OperatorProduct} {f : Rational} {e : Expr} :
    let o := runReg OSI.empty hist
    (∀ s ∈ o.spaces, isAlpha s.label = true ∧ ∀ name ∈ s.indices, ∃ c, name = [c] ∧ isAlpha c = true) → (∀ c ∈ label, isWord c = true) → PrintsEight fmt →
    o.spaces.length ≤ 8 → ops ≠ [] → (∀ p ∈ ops, p.Valid o.spaces.length ∧ ∀ c ∈ p.label, isWord c = true) → NoTriples o ops → 1 ≤ cfg.maxCumulant → Canon f →
    contract o cfg f ops 0 0 = .ok e →
    (∀ p ∈ e, p.1.allIdx.toFinset.card ≤ 52 ∧ ∀ (n : Nat) s, o.spaces[n]? = some s → (p.1.allIdx.toFinset.filter (fun i => i.space = (n : Int))).card ≤ s.indices.length) →
    ∀ (v : OrbSystem Ω R A) (arr : Str → Str → List Ω → R) (dom : Char → Finset Ω) (ρ : Reference Ω R) (N : List (SQType × Ω) → A) (φ : A →ₗ[R] R),
    v.Antisymmetric → IsCAR v.op → v.HasReference o cfg.maxCumulant ρ → IsGNO v.op ρ N → IsReferenceState v.op ρ φ →
    (∀ p ∈ e, ∀ y ∈ p.1.tensors, ∀ l u, l.length = y.lower.length → u.length = y.upper.length → arr y.label (spaceText o y) (u ++ l) = v.T y.label l u) →
    (∀ (n : Nat) s, o.spaces[n]? = some s → dom s.label = v.dom n) →
    ∃ m, e.toManybody o label = .ok m ∧ ∃ (lines : List Str) (value : List Ω → R), (m.flatMap Prod.snd).mapM (m := Except Fault) (fun q => compileEinsumPy o fmt q) = .ok lines ∧
      Py1Runs arr dom lines (fun _ _ => 0) (fun name x => if name = label then value x else 0) ∧
      abv (value [] - φ (toRat f • (ops.map (v.opValueOf N o.spaces.length)).prod)) ≤ 1 / 10 ^ 8 * (e.map (fun p => abv (v.scalarValue p.1))).sum := by
  intro o hal hlab hfmt h8 hne hvo h2 hmc hf hc hb v arr dom ρ N φ hv hcar href hN hφ harr hdom
  have hvo' := fun p hp => (hvo p hp).1
  obtain ⟨hops, hval⟩ := C72_expectation_partial h8 hvo' h2 hmc hf hc hv hcar href hN hφ
  rw [← hval]
  exact C67_scalar_program abv habv hist (label := label) hal hlab hfmt
    (fun p hp => ⟨contract_compilable h8 hvo' hne (fun p hp => (hvo p hp).2) hf hc hp (hb p hp).1, (hb p hp).2⟩)
    (contract_spec hf hc).choose_spec.2.1.toOk.canon hops v arr dom harr hdom
end

/-- the coefficient with a sign, cut after eight decimals -/
def cut8 (c : Rational) : Str := if c.num < 0 then cutAt 8 c else '+' :: cutAt 8 c

theorem cut8_prints : PrintsEight cut8 := by
  intro c hc
  obtain ⟨⟨a, b, hab, h1, h2, h3, h4⟩, x, hx, hlt⟩ := cutAt_prints (k := 8) (by decide) c hc
  have hfix : IsFixed 8 (cutAt 8 c) := ⟨a, b, hab, h1, h2, h3, h4⟩
  unfold cut8
  split
  · next hneg =>
    have hh : (cutAt 8 c).head? = some '-' := by unfold cutAt; rw [if_pos hneg]; rfl
    refine ⟨Or.inr ⟨hh, hfix⟩, x, ?_, hlt⟩
    unfold signedVal
    rw [if_neg (by rw [hh]; decide)]; exact hx
  · next hneg =>
    refine ⟨Or.inl ⟨rfl, ?_, hfix⟩, x, ?_, hlt⟩
    · have hd : ∀ n k l, (natStr n ++ '.' :: padTo k l).head? ≠ some '-' := by
        intro n k l h
        cases hs : natStr n with
        | nil => rw [hs] at h; simp at h
        | cons d s =>
          rw [hs] at h
          simp at h
          subst h
          have hdig : isDigit '-' = true := natStr_digits n '-' (by rw [hs]; simp)
          exact absurd hdig (by decide)
      show (cutAt 8 c).head? ≠ _
      unfold cutAt
      rw [if_neg hneg]
      exact hd _ _ _
    · unfold signedVal
      rw [if_pos (by rfl)]; exact hx

/-- `1/3 f^{v0}_{o0} t^{o0}_{v0}`, a scalar, and `1/2 f^{v0}_{o0} a+(o0) a(v0)` with operators -/
def exPy : Expr := [(⟨false, [], [⟨['f'], [⟨0, 0⟩], [⟨1, 0⟩], .antisymmetric, false⟩, ⟨['t'], [⟨1, 0⟩], [⟨0, 0⟩], .antisymmetric, false⟩]⟩, ⟨1, 3⟩),
  (⟨false, [⟨.creation, ⟨0, 0⟩⟩, ⟨.annihilation, ⟨1, 0⟩⟩], [⟨['f'], [⟨0, 0⟩], [⟨1, 0⟩], .antisymmetric, false⟩]⟩, ⟨1, 2⟩)]

-- all hypotheses hold for an expression with a scalar term, whose factor is rounded, and a term with operators: there are equations of the scalar key and of another
example : ∃ m, exPy.toManybody (runReg OSI.empty ccHistory) ['E'] = .ok m ∧ (∃ q ∈ m, q.1 = ['|']) ∧ (∃ q ∈ m, q.1 ≠ ['|']) ∧ ∀ q ∈ m,
    (q.1 ≠ ['|'] → q.2.mapM (m := Except Fault) (fun q => compileEinsumPy (runReg OSI.empty ccHistory) cut8 q) = .error .throw) ∧
    (q.1 = ['|'] → ∃ (lines : List Str) (value : List Bool → ℚ), q.2.mapM (m := Except Fault) (fun q => compileEinsumPy (runReg OSI.empty ccHistory) cut8 q) = .ok lines ∧
      Py1Runs (fun _ _ _ => (1 : ℚ)) (fun _ => (Finset.univ : Finset Bool)) lines (fun _ _ => 0) (fun name x => if name = ['E'] then value x else 0)) := by
  have := C67_program_error (Ω := Bool) (R := ℚ) (A := ℚ) (S := ℚ) AbsoluteValue.abs (fun c => by simp) ccHistory (fmt := cut8) (label := ['E']) (e := exPy)
    (by
      have h : ∀ s ∈ (runReg OSI.empty ccHistory).spaces, isAlpha s.label = true ∧ ∀ name ∈ s.indices, name = [name.headD ' '] ∧ isAlpha (name.headD ' ') = true := by decide +kernel
      exact fun s hs => ⟨(h s hs).1, fun name hn => ⟨_, (h s hs).2 name hn⟩⟩)
    (by decide) cut8_prints (by
      intro p hp
      have hcap : ∀ p ∈ exPy, ∀ n : Nat, n < 2 → ∀ s ∈ (runReg OSI.empty ccHistory).spaces[n]?, (p.1.allIdx.toFinset.filter (fun i => i.space = (n : Int))).card ≤ s.indices.length := by
        decide +kernel
      refine ⟨?_, fun n s hs => hcap p hp n (List.getElem?_eq_some_iff.1 hs).1 s hs⟩
      rw [exPy, List.mem_cons, List.mem_singleton] at hp
      rcases hp with rfl | rfl <;>
      · refine ⟨by decide, by decide, ?_, by decide, by decide, by decide, by decide, by decide, by decide⟩
        unfold Index.Registered
        decide +kernel) (by
      intro p hp
      rw [exPy, List.mem_cons, List.mem_singleton] at hp
      rcases hp with rfl | rfl <;> constructor <;> decide) ⟨fun _ => Finset.univ, fun _ _ _ => 1, fun _ _ => 0⟩ (fun _ _ _ => 1) (fun _ => Finset.univ) (fun _ _ _ _ _ _ _ _ => rfl) (fun _ _ _ => rfl)
  obtain ⟨m, hm, h⟩ := this
  have hm' : (match exPy.toManybody (runReg OSI.empty ccHistory) ['E'] with | .ok m => m.any (fun q => q.1 == ['|']) && m.any (fun q => !(q.1 == ['|'])) | .error _ => false) = true := by decide +kernel
  rw [hm] at hm'
  simp only [Bool.and_eq_true, List.any_eq_true] at hm'
  obtain ⟨⟨q1, hq1, h1⟩, ⟨q2, hq2, h2⟩⟩ := hm'
  refine ⟨m, hm, ⟨q1, hq1, by simpa using h1⟩, ⟨q2, hq2, by simpa using h2⟩, fun q hq => ⟨(h q hq).1, fun hs => ?_⟩⟩
  obtain ⟨lines, value, a, b, _⟩ := (h q hq).2 hs
  exact ⟨lines, value, a, b⟩

theorem ccReg_vacuum : jwSys.Vacuum (runReg OSI.empty ccHistory) id := by
  refine ⟨?_, ?_⟩
  · intro s hs
    have hs : s < 2 := hs
    interval_cases s
    · left; exact ⟨by decide +kernel, by simp [jwSys]⟩
    · right; exact ⟨by decide +kernel, by simp [jwSys]⟩
  · intro s s' hs hs' hne
    have hs : s < 2 := hs
    have hs' : s' < 2 := hs'
    interval_cases s <;> interval_cases s' <;> simp_all [jwSys]

-- all hypotheses hold for `1/3 f t` with one occupied and one unoccupied orbital; one line is generated, and the number is off by at most `10^-8`
example : ∃ e m, contract (runReg OSI.empty ccHistory) {} ⟨1, 3⟩ jwOps 0 0 = .ok e ∧ e.toManybody (runReg OSI.empty ccHistory) ['E'] = .ok m ∧ e.length = 1 ∧
    ∃ (lines : List Str) (value : List Bool → ℚ), (m.flatMap Prod.snd).mapM (m := Except Fault) (fun q => compileEinsumPy (runReg OSI.empty ccHistory) cut8 q) = .ok lines ∧
      Py1Runs (fun _ _ _ => (1 : ℚ)) (fun c => if c = 'o' then {true} else {false}) lines (fun _ _ => 0) (fun name x => if name = ['E'] then value x else 0) ∧
      |value [] - jwVac (toRat ⟨1, 3⟩ • (jwOps.map (jwSys.opValue id 2)).prod)| ≤ 1 / 10 ^ 8 * (e.map (fun p => |jwSys.scalarValue p.1|)).sum := by
  obtain ⟨e, he, h1⟩ := ok_of_check (x := contract (runReg OSI.empty ccHistory) {} ⟨1, 3⟩ jwOps 0 0) (fun e =>
    decide (e.length = 1 ∧ (∀ p ∈ e, p.1.allIdx.toFinset.card ≤ 52 ∧ ∀ n : Nat, n < 2 → ∀ s ∈ (runReg OSI.empty ccHistory).spaces[n]?, (p.1.allIdx.toFinset.filter (fun i => i.space = (n : Int))).card ≤ s.indices.length) ∧
      ∀ p ∈ e, ∀ y ∈ p.1.tensors, y.lower.length ≤ 1 ∧ y.upper.length ≤ 1)) (by decide +kernel)
  obtain ⟨h4, hb, ht⟩ := of_decide_eq_true h1
  have := C67_expectation_program_partial (Ω := Bool) (R := ℚ) (A := Matrix (Fin 4) (Fin 4) ℚ) (AbsoluteValue.abs : AbsoluteValue ℚ ℚ) (by intro c; simp) ccHistory (fmt := cut8) (label := ['E']) (cfg := {}) (ops := jwOps) (f := ⟨1, 3⟩) (e := e)
  obtain ⟨m, hm, h⟩ := this (by
      have h : ∀ s ∈ (runReg OSI.empty ccHistory).spaces, isAlpha s.label = true ∧ ∀ name ∈ s.indices, name = [name.headD ' '] ∧ isAlpha (name.headD ' ') = true := by decide +kernel
      exact fun s hs => ⟨(h s hs).1, fun name hn => ⟨_, (h s hs).2 name hn⟩⟩) (by decide) cut8_prints (by decide) (by decide)
    (fun p hp => ⟨jwOps_valid p hp, by revert p; decide⟩) (noTriples_of_two jwOps_two) (by constructor <;> decide) he
    (fun p hp => ⟨(hb p hp).1, fun n s hs => (hb p hp).2 n (List.getElem?_eq_some_iff.1 hs).1 s hs⟩)
    jwSys (fun _ _ _ => 1) (fun c => if c = 'o' then {true} else {false}) id jwVac jw_anti jw_car ccReg_vacuum jw_expectation
    (by
      intro p hp y hy l u hl hu
      have := ht p hp y hy
      show (1 : ℚ) = if l.length ≤ 1 ∧ u.length ≤ 1 then 1 else 0
      rw [if_pos ⟨by omega, by omega⟩])
    (by
      intro n s hs
      match n with
      | 0 => cases hs; decide
      | 1 => cases hs; decide
      | n + 2 => cases hs)
  exact ⟨e, m, he, hm, h4, h⟩

/-- one general space with four names -/
def genHistory : List RegOp := [.add 'a' .fermion .general [['p'], ['q'], ['r'], ['s']] []]

-- all hypotheses hold for two one-body operators in a correlated reference (the mixture `jwMix`); two lines are generated, one with `gamma1` and `eta1` and one with `lambda2`
example : ∃ (v : OrbSystem Bool ℚ (Matrix (Fin 4) (Fin 4) ℚ)) (N : List (SQType × Bool) → Matrix (Fin 4) (Fin 4) ℚ) (arr : Str → Str → List Bool → ℚ) (dom : Char → Finset Bool) (e : Expr) (m : List (Str × List Equation)),
    contract (runReg OSI.empty genHistory) {} ⟨1, 3⟩ gOps 0 0 = .ok e ∧ e.toManybody (runReg OSI.empty genHistory) ['E'] = .ok m ∧ e.length = 2 ∧
    ∃ (lines : List Str) (value : List Bool → ℚ), (m.flatMap Prod.snd).mapM (m := Except Fault) (fun q => compileEinsumPy (runReg OSI.empty genHistory) cut8 q) = .ok lines ∧
      Py1Runs arr dom lines (fun _ _ => 0) (fun name x => if name = ['E'] then value x else 0) ∧
      |value [] - jwMix (toRat ⟨1, 3⟩ • (gOps.map (v.opValueOf N 1)).prod)| ≤ 1 / 10 ^ 8 * (e.map (fun p => |v.scalarValue p.1|)).sum := by
  obtain ⟨v, ρ, N, hv, hcar, href, hN, hφ, _, _⟩ := exG_reference
  have href' : v.HasReference (runReg OSI.empty genHistory) 100 ρ := by
    have ht : ∀ s : Nat, s < 1 → (runReg OSI.empty genHistory).spaceType s = exG.spaceType s := by decide +kernel
    constructor
    · exact href.disjoint
    · exact fun s hs h => href.occupied s hs (ht s hs ▸ h)
    · exact fun s hs h => href.unoccupied s hs (ht s hs ▸ h)
    · exact fun s hs h => href.gamma1 s hs (ht s hs ▸ h)
    · exact fun s hs h => href.eta1 s hs (ht s hs ▸ h)
    · exact fun s hs h => href.lambda s hs (ht s hs ▸ h)
    · exact href.uncorrelated_gamma
    · exact fun ps qs h1 h2 h3 => href.uncorrelated ps qs h1 h2 (fun ⟨s, hs, h, h'⟩ => h3 ⟨s, hs, (ht s hs).trans h, h'⟩)
    · exact href.bounded
  obtain ⟨e, he, h1⟩ := ok_of_check (x := contract (runReg OSI.empty genHistory) {} ⟨1, 3⟩ gOps 0 0) (fun e =>
    decide (e.length = 2 ∧ (∀ p ∈ e, p.1.allIdx.toFinset.card ≤ 52 ∧ ∀ n : Nat, n < 1 → ∀ s ∈ (runReg OSI.empty genHistory).spaces[n]?, (p.1.allIdx.toFinset.filter (fun i => i.space = (n : Int))).card ≤ s.indices.length) ∧
      ∀ p ∈ e, ∀ y ∈ p.1.tensors, y.lower.length = y.upper.length)) (by decide +kernel)
  obtain ⟨h4, hb, ht⟩ := of_decide_eq_true h1
  have := C67_reference_program_partial (Ω := Bool) (R := ℚ) (A := Matrix (Fin 4) (Fin 4) ℚ) (AbsoluteValue.abs : AbsoluteValue ℚ ℚ) (by intro c; simp) genHistory (fmt := cut8) (label := ['E']) (cfg := {}) (ops := gOps) (f := ⟨1, 3⟩) (e := e)
  obtain ⟨m, hm, h⟩ := this (by
      have h : ∀ s ∈ (runReg OSI.empty genHistory).spaces, isAlpha s.label = true ∧ ∀ name ∈ s.indices, name = [name.headD ' '] ∧ isAlpha (name.headD ' ') = true := by decide +kernel
      exact fun s hs => ⟨(h s hs).1, fun name hn => ⟨_, (h s hs).2 name hn⟩⟩) (by decide) cut8_prints (by decide) (by decide)
    (fun p hp => ⟨gOps_valid p hp, by revert p; decide⟩) (noTriples_of_two gOps_two) (by decide) (by constructor <;> decide) he
    (fun p hp => ⟨(hb p hp).1, fun n s hs => (hb p hp).2 n (List.getElem?_eq_some_iff.1 hs).1 s hs⟩)
    v (fun lab _ xs => v.T lab (xs.drop (xs.length / 2)) (xs.take (xs.length / 2))) (fun _ => v.dom 0) ρ N jwMix hv hcar href' hN hφ
    (by
      intro p hp y hy l u hl hu
      have hlu : l.length = u.length := by rw [hl, hu]; exact ht p hp y hy
      have hh : (u ++ l).length / 2 = u.length := by rw [List.length_append]; omega
      show v.T y.label ((u ++ l).drop _) ((u ++ l).take _) = _
      rw [hh, List.drop_left, List.take_left])
    (by
      intro n s hs
      match n with
      | 0 => rfl
      | n + 1 => cases hs)
  exact ⟨v, N, _, _, e, m, he, hm, h4, h⟩

end Wick
end Wicked
