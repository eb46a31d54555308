import Verif.Proofs.WickProduct
import Verif.Props.WickSum
import Verif.Props.WickGraph
import Mathlib.Data.Matrix.Mul
import Mathlib.LinearAlgebra.Matrix.Notation
/-! # C53, second half: for occupied and unoccupied spaces `contract` is the product of the operators -/
namespace Wicked
open CppLt CppEq Rational
namespace Wick
open NP

section
variable {Ω R B : Type} [Inhabited Ω] [DecidableEq Ω] [CommRing R] [Ring B] [Algebra R B] [Algebra ℚ B]

/-- rational multiples of linear maps -/
instance endAlg : Algebra ℚ (Module.End R (B × B)) := Algebra.ofModule
  (fun _ _ _ => LinearMap.ext (fun _ => rfl))
  (fun q f g => LinearMap.ext (fun x => map_rat_smul f q (g x)))

theorem elems_wsys (v : OrbSystem Ω R B) (hole : Ω → Bool) (ns : Nat) (ops : OperatorProduct) (x : Slot → Ω) :
    ∀ k, elemsFrom (wsys v hole) ns k ops x = elemsFrom v ns k ops x := by
  induction ops with
  | nil => intro k; rfl
  | cons p ops ih => intro k; rw [elemsFrom, elemsFrom, ih]; rfl

theorem eval_apply {v : OrbSystem Ω R B} (h : IsCAR v.op) (hole : Ω → Bool) (e : Expr) :
    ((Lin.eval (wsys v hole).value e : Module.End R (B × B)) 1).1 = Lin.eval (v.normalValue hole) e := by
  unfold Lin.eval
  induction e with
  | nil => rfl
  | cons p e ih =>
    rw [List.map_cons, List.sum_cons, List.map_cons, List.sum_cons, LinearMap.add_apply, Prod.fst_add, ih, LinearMap.smul_apply, Prod.smul_fst,
      value_apply h hole]

theorem apply_sumOver {ι : Type} [DecidableEq ι] (S : Finset ι) (d : ι → Finset Ω) (F : (ι → Ω) → Module.End R (B × B)) :
    ((sumOver S d F : Module.End R (B × B)) 1).1 = sumOver S d (fun x => ((F x) 1).1) := by
  unfold sumOver
  rw [LinearMap.sum_apply, Prod.fst_sum]

theorem wickSum_product {v : OrbSystem Ω R B} {o : OSI} {hole : Ω → Bool} (hcar : IsCAR v.op) (hvac : v.Vacuum o hole) (m : Int) (ops : OperatorProduct)
    {minr maxr : Int} (hmin : minr ≤ 0) (hmax : ((slots o.spaces.length ops).length : Int) ≤ maxr) :
    ((wickSum (wsys v hole) o m ops minr maxr (fun _ => 1) : Module.End R (B × B)) 1).1 =
      (ops.map (opSum v (normalProd hole v.op) o.spaces.length 0)).prod := by
  unfold wickSum
  rw [apply_sumOver, ← sum_factors v (normalProd hole v.op) o.spaces.length ops 0]
  apply sumOver_congr
  intro x hx
  have hx' : ∀ y ∈ slots o.spaces.length ops, x y ∈ v.dom y.space := fun y hy => hx y (List.mem_toFinset.2 hy)
  rw [opElements_eq, LinearMap.smul_apply, Prod.smul_fst]
  simp only [one_smul]
  rw [sum_full (wsys v hole) hvac m ops hmin hmax x, schemes_product hcar hvac m ops hx', elems_wsys]

theorem opValue_prod {v : OrbSystem Ω R B} {ns : Nat} {hole : Ω → Bool} {ops : OperatorProduct} (hvo : ∀ p ∈ ops, p.Valid ns) :
    (ops.map (v.opValue hole ns)).prod = (ops.map (fun p => toRat (p.factor ns))).prod • (ops.map (opSum v (normalProd hole v.op) ns 0)).prod := by
  induction ops with
  | nil => simp
  | cons p ops ih =>
    simp only [List.map_cons, List.prod_cons]
    rw [ih (fun q hq => hvo q (by simp [hq])), ← smul_mul_smul_comm, (C39_operator_factor (hvo p (by simp))).2]
    rfl

/-- **C53**, second half: let every space be occupied or unoccupied, let no three alike contractions be possible
(`NoTriples`), and let the window contain all ranks. Then in every algebra with the canonical
anticommutation relations, for all orbitals and antisymmetric tensors, the sum of the terms of the result (their
operators read as normal products) is `f` times the product of the operators themselves. Missing with respect to the
full claim: products in which three alike contractions are possible, for which it is false
(`C53_three_body_doubled`). -/
theorem C53_operator_product_partial {o : OSI} {cfg : WickCfg} {ops : OperatorProduct} (h8 : o.spaces.length ≤ 8)
    (hvo : ∀ p ∈ ops, p.Valid o.spaces.length) (h2 : NoTriples o ops) {f : Rational} (hf : Canon f) {minr maxr : Int} {e : Expr}
    (h : contract o cfg f ops minr maxr = .ok e) (hmin : minr ≤ 0) (hmax : totalOps o.spaces.length ops ≤ maxr)
    {v : OrbSystem Ω R B} (hv : v.Antisymmetric) (hcar : IsCAR v.op) {hole : Ω → Bool} (hvac : v.Vacuum o hole) :
    Lin.eval (v.normalValue hole) e = toRat f • (ops.map (v.opValue hole o.spaces.length)).prod := by
  rw [← length_slots hvo] at hmax
  have hw := C53_wick_partial h8 hvo h2 hf h (v := wsys v hole) hv (wsys_anticommute hcar hole)
  rw [← eval_apply hcar hole, hw, LinearMap.smul_apply, Prod.smul_fst, wickSum_product hcar hvac _ ops hmin hmax, opValue_prod hvo, smul_smul]

/-- **C53**, second half, for operator expressions. -/
theorem C53_operator_product_expr_partial {o : OSI} {cfg : WickCfg} {E : OpExpr} (h8 : o.spaces.length ≤ 8)
    (hvo : ∀ q ∈ E, ∀ p ∈ q.1, p.Valid o.spaces.length) (h2 : ∀ q ∈ E, NoTriples o q.1) (hE : ∀ q ∈ E, Canon q.2)
    {f : Rational} (hf : Canon f) {minr maxr : Int} {e : Expr}
    (h : contractExpr o cfg f E minr maxr = .ok e) (hmin : minr ≤ 0) (hmax : ∀ q ∈ E, totalOps o.spaces.length q.1 ≤ maxr)
    {v : OrbSystem Ω R B} (hv : v.Antisymmetric) (hcar : IsCAR v.op) {hole : Ω → Bool} (hvac : v.Vacuum o hole) :
    Lin.eval (v.normalValue hole) e = toRat f • (E.map (fun q => toRat q.2 • (q.1.map (v.opValue hole o.spaces.length)).prod)).sum := by
  have hw := C53_wick_expr_partial h8 hvo h2 hE hf h (v := wsys v hole) hv (wsys_anticommute hcar hole)
  rw [← eval_apply hcar hole, hw]
  clear hw h h2
  induction E with
  | nil => simp
  | cons q E ih =>
    have hm := hmax q (by simp)
    rw [← length_slots (hvo q (by simp))] at hm
    rw [List.map_cons, List.sum_cons, LinearMap.add_apply, Prod.fst_add,
      ih (fun q hq => hvo q (by simp [hq])) (fun q hq => hE q (by simp [hq])) (fun q hq => hmax q (by simp [hq])),
      LinearMap.smul_apply, Prod.smul_fst, wickSum_product hcar hvac _ q.1 hmin hm, List.map_cons, List.sum_cons, smul_add,
      opValue_prod (hvo q (by simp)), smul_smul, smul_smul, mul_assoc]

/-! ## vacuum expectation values -/

theorem normalProd_expectation {op : SQType → Ω → B} {hole : Ω → Bool} {φ : B →ₗ[R] R} (hφ : IsVacuumExpectation op hole φ) {l : List (SQType × Ω)}
    (hl : l ≠ []) : φ (normalProd hole op l) = 0 := by
  unfold normalProd
  have hs : ∀ (z : Int) (b : B), φ ((z : B) * b) = (z : R) * φ b := by
    intro z b
    rw [← zsmul_eq_mul, map_zsmul, zsmul_eq_mul]
  rw [hs]
  by_cases h : (l.filter (fun m => kills hole m)) = []
  · have h1 : (l.filter (fun m => !kills hole m)) = l := by
      rw [List.filter_eq_self]
      intro m hm
      rw [List.filter_eq_nil_iff] at h
      simpa using h m hm
    cases l with
    | nil => exact absurd rfl hl
    | cons m l =>
      rw [h1, List.map_cons, List.prod_cons, mul_assoc, hφ.left _ m.1 m.2, mul_zero]
      rw [List.filter_eq_nil_iff] at h
      simpa using h m (by simp)
  · obtain ⟨l', m, hm⟩ := List.eq_nil_or_concat _ |>.resolve_left h
    have hk : kills hole m = true := by
      have : m ∈ l.filter (fun m => kills hole m) := by rw [hm]; simp
      simpa using (List.mem_filter.1 this).2
    rw [hm, List.concat_eq_append, List.map_append, List.map_singleton, List.prod_append, List.prod_singleton, ← mul_assoc, hφ.right _ m.1 m.2 hk, mul_zero]

theorem leftOver_ne {con : Finset Slot → Prop} {L : List Slot} {S : Finset (Finset Slot)} (hn : L.Nodup) (hS : S ∈ pairSets con L)
    (h : (L.length : Int) - ((∑ b ∈ S, b.card : Nat) : Int) ≠ 0) : leftOver L S ≠ [] := by
  intro hl
  have hp := flat_perm hn hS
  rw [hl, List.append_nil] at hp
  have h1 := hp.length_eq
  rw [List.length_flatMap] at h1
  have h2 : (S.toList.map (fun b => (prOrder L b).length)) = S.toList.map Finset.card :=
    List.map_congr_left (fun b hb => prOrder_card hn ((mem_pairSets.1 hS).1 b (Finset.mem_toList.1 hb)))
  rw [h2, Finset.sum_map_toList] at h1
  apply h
  rw [← h1]
  exact sub_self _

theorem wickSum_expectation {v : OrbSystem Ω R B} {o : OSI} {hole : Ω → Bool} (hcar : IsCAR v.op) (hvac : v.Vacuum o hole) (m : Int) (ops : OperatorProduct)
    {φ : B →ₗ[R] R} (hφ : IsVacuumExpectation v.op hole φ) :
    φ ((wickSum (wsys v hole) o m ops 0 0 (fun _ => 1) : Module.End R (B × B)) 1).1 =
      φ (ops.map (opSum v (normalProd hole v.op) o.spaces.length 0)).prod := by
  rw [← wickSum_product hcar hvac m ops le_rfl le_rfl]
  unfold wickSum
  rw [apply_sumOver, apply_sumOver]
  unfold sumOver
  rw [map_sum, map_sum]
  apply Finset.sum_congr rfl
  intro σ _
  simp only [one_smul, LinearMap.smul_apply, Prod.smul_fst, map_smul, LinearMap.sum_apply, Prod.fst_sum, map_sum]
  congr 1
  have hn := nodup_slots o.spaces.length ops
  apply Finset.sum_subset
  · intro S hS
    rw [mem_schemes] at hS ⊢
    obtain ⟨h1, h2, h3, h4, h5⟩ := hS
    exact ⟨h1, h2, h3, h4, by omega⟩
  · intro S hS hS'
    rw [mem_schemes] at hS hS'
    obtain ⟨h1, h2, h3, h4, h5⟩ := hS
    have hne : leftOver (slots o.spaces.length ops) S ≠ [] := by
      apply leftOver_ne (con := IsContraction o m) hn (mem_pairSets.2 ⟨h1, h2, h3⟩)
      intro he
      exact hS' ⟨h1, h2, h3, by omega, by omega⟩
    unfold schemeTerm
    rw [LinearMap.smul_apply, Prod.smul_fst, map_smul]
    have e := ops_apply v hole ((leftOver (slots o.spaces.length ops) S).map (fun y => (y.type, (fun i => if h : i ∈ (slots o.spaces.length ops).toFinset then σ ⟨i, h⟩ else default) y)))
    rw [List.map_map] at e
    have e' := congrArg Prod.fst e
    rw [nprod_fst hcar] at e'
    refine Eq.trans (congrArg _ (congrArg φ e')) ?_
    rw [normalProd_expectation hφ (by simpa using hne), smul_zero]

/-- **C53**, expectation values: with the window `0 .. 0` (full contractions) the result has no operators, and the sum of
its terms is the vacuum expectation value of `f` times the product of the operators. -/
theorem C53_vacuum_expectation_partial [Algebra ℚ R] {o : OSI} {cfg : WickCfg} {ops : OperatorProduct} (h8 : o.spaces.length ≤ 8)
    (hvo : ∀ p ∈ ops, p.Valid o.spaces.length) (h2 : NoTriples o ops) {f : Rational} (hf : Canon f) {e : Expr}
    (h : contract o cfg f ops 0 0 = .ok e)
    {v : OrbSystem Ω R B} (hv : v.Antisymmetric) (hcar : IsCAR v.op) {hole : Ω → Bool} (hvac : v.Vacuum o hole)
    {φ : B →ₗ[R] R} (hφ : IsVacuumExpectation v.op hole φ) :
    (∀ p ∈ e, p.1.ops = []) ∧ Lin.eval v.scalarValue e = φ (toRat f • (ops.map (v.opValue hole o.spaces.length)).prod) := by
  have hops : ∀ p ∈ e, p.1.ops = [] := by
    intro p hp
    have := C44_rank_window h8 hvo hf h p hp
    exact List.length_eq_zero_iff.1 (by omega)
  refine ⟨hops, ?_⟩
  have hq : ∀ (c : ℚ) (b : B), φ (c • b) = c • φ b := fun c b => map_rat_smul φ c b
  have hw := C53_wick_partial h8 hvo h2 hf h (v := wsys v hole) hv (wsys_anticommute hcar hole)
  have hev : Lin.eval v.scalarValue e = φ (Lin.eval (v.normalValue hole) e) := by
    clear h hw
    unfold Lin.eval
    induction e with
    | nil => simp
    | cons p e ih =>
      rw [List.map_cons, List.sum_cons, List.map_cons, List.sum_cons, map_add, hq, ← ih (fun q hq => hops q (by simp [hq]))]
      congr 2
      unfold OrbSystem.scalarValue OrbSystem.normalValue sumOver
      rw [map_sum]
      apply Finset.sum_congr rfl
      intro σ _
      beta_reduce
      rw [hops p (by simp), map_smul]
      have : normalProd hole v.op ([] : List (SQType × Ω)) = 1 := by simp [normalProd, normalSign]
      rw [List.map_nil, this, hφ.one, smul_eq_mul, mul_one]
  rw [hev, ← eval_apply hcar hole, hw, LinearMap.smul_apply, Prod.smul_fst, hq, wickSum_expectation hcar hvac _ ops hφ, opValue_prod hvo, smul_smul, hq]
end

/-! ## A system that meets the hypotheses: one occupied and one unoccupied orbital, with 4 by 4 matrices -/

/-- annihilation operators of the occupied (`true`) and of the unoccupied (`false`) orbital -/
def jwAnn : Bool → Matrix (Fin 4) (Fin 4) ℚ
  | true => !![0, 0, 1, 0; 0, 0, 0, 1; 0, 0, 0, 0; 0, 0, 0, 0]
  | false => !![0, 1, 0, 0; 0, 0, 0, 0; 0, 0, 0, -1; 0, 0, 0, 0]

def jwOp : SQType → Bool → Matrix (Fin 4) (Fin 4) ℚ
  | .creation, x => (jwAnn x).transpose
  | .annihilation, x => jwAnn x

theorem jw_car : IsCAR jwOp := by
  constructor
  · intro s x y
    cases s <;> cases x <;> cases y <;> decide +kernel
  · intro x y
    cases x <;> cases y <;> decide +kernel

/-- tensors with at most one upper and one lower index -/
def jwSys : OrbSystem Bool ℚ (Matrix (Fin 4) (Fin 4) ℚ) :=
  ⟨fun s => if s = 0 then {true} else {false}, fun _ l u => if l.length ≤ 1 ∧ u.length ≤ 1 then 1 else 0, jwOp⟩

theorem jw_anti : jwSys.Antisymmetric := by
  intro lab
  refine ⟨fun pre a b post u => ?_, fun l pre a b post => ?_⟩
  · simp only [jwSys, List.length_append, List.length_cons]
    rw [if_neg (by omega)]; simp
  · simp only [jwSys, List.length_append, List.length_cons]
    rw [if_neg (by omega)]; simp

theorem jw_vacuum : jwSys.Vacuum exSR id := by
  refine ⟨?_, ?_⟩
  · intro s hs
    simp only [exSR, List.length_cons, List.length_nil] at hs
    interval_cases s
    · left; exact ⟨by decide +kernel, by simp [jwSys]⟩
    · right; exact ⟨by decide +kernel, by simp [jwSys]⟩
  · intro s s' hs hs' hne
    simp only [exSR, List.length_cons, List.length_nil] at hs hs'
    interval_cases s <;> interval_cases s' <;> simp_all [jwSys]

/-- the expectation value in the state in which the occupied orbital is occupied -/
def jwVac : Matrix (Fin 4) (Fin 4) ℚ →ₗ[ℚ] ℚ where
  toFun M := M 2 2
  map_add' _ _ := rfl
  map_smul' _ _ := rfl

theorem jw_expectation : IsVacuumExpectation jwSys.op id jwVac := by
  refine ⟨rfl, ?_, ?_⟩
  · intro b s x h
    have hc : ∀ k, jwOp s x k 2 = 0 := by
      cases s <;> cases x <;> first | (simp [kills] at h; done) | decide +kernel
    show (b * jwOp s x) 2 2 = 0
    rw [Matrix.mul_apply]
    exact Finset.sum_eq_zero (fun k _ => by rw [hc k, mul_zero])
  · intro b s x h
    have hc : ∀ k, jwOp s x 2 k = 0 := by
      cases s <;> cases x <;> first | (simp [kills] at h; done) | decide +kernel
    show (jwOp s x * b) 2 2 = 0
    rw [Matrix.mul_apply]
    exact Finset.sum_eq_zero (fun k _ => by rw [hc k, zero_mul])

def jwOps : OperatorProduct := [mkOp "f" [(1, 0), (0, 1)], mkOp "t" [(0, 1), (1, 0)]]

theorem jwOps_valid : ∀ p ∈ jwOps, p.Valid exSR.spaces.length := by
  intro p hp
  rcases List.mem_cons.1 hp with rfl | hp
  · exact mkOp_valid _ _ _ (by decide) (by simp)
  · rcases List.mem_cons.1 hp with rfl | hp
    · exact mkOp_valid _ _ _ (by decide) (by simp)
    · cases hp

theorem jwOps_two : ∀ p ∈ jwOps, ∀ s, p.gm.cre s ≤ 2 := by
  intro p hp s
  by_cases hs : s < 8
  · simp only [jwOps, List.mem_cons, List.not_mem_nil, or_false] at hp
    rcases hp with rfl | rfl <;> interval_cases s <;> decide
  · have : p.gm.cre s = 0 := by
      simp only [jwOps, List.mem_cons, List.not_mem_nil, or_false] at hp
      rcases hp with rfl | rfl <;> simp [mkOp, GraphMatrix.cre, gm_get_tab, hs]
    omega

-- the product of two operators: four terms, with zero to two contractions
example : ∃ e, contract exSR {} ⟨1, 2⟩ jwOps 0 4 = .ok e ∧ e.length = 4 ∧
    Lin.eval (jwSys.normalValue id) e = ((1 : ℚ) / 2) • (jwOps.map (jwSys.opValue id 2)).prod := by
  have h : (contract exSR {} ⟨1, 2⟩ jwOps 0 4).toOption.map List.length = some 4 := by decide +kernel
  cases hc : contract exSR {} ⟨1, 2⟩ jwOps 0 4 with
  | error e => rw [hc] at h; cases h
  | ok e =>
    rw [hc] at h
    refine ⟨e, rfl, by simpa [Except.toOption] using h, ?_⟩
    have := C53_operator_product_partial (by decide) jwOps_valid (noTriples_of_two jwOps_two) (by constructor <;> decide) hc (by decide) (by decide +kernel) jw_anti jw_car jw_vacuum
    rw [this]
    norm_num [toRat]
    rfl

-- the vacuum expectation value of the product is 1/2
example : jwVac (((1 : ℚ) / 2) • (jwOps.map (jwSys.opValue id 2)).prod) = 1 / 2 := by
  have h : ((contract exSR {} ⟨1, 2⟩ jwOps 0 0).toOption.map (Lin.eval jwSys.scalarValue)) = some (1 / 2) := by decide +kernel
  cases hc : contract exSR {} ⟨1, 2⟩ jwOps 0 0 with
  | error e => rw [hc] at h; cases h
  | ok e =>
    rw [hc] at h
    have := (C53_vacuum_expectation_partial (by decide) jwOps_valid (noTriples_of_two jwOps_two) (by constructor <;> decide) hc jw_anti jw_car jw_vacuum jw_expectation).2
    have h2 : Lin.eval jwSys.scalarValue e = 1 / 2 := by simpa [Except.toOption] using h
    rw [h2, show toRat ⟨1, 2⟩ = (1 : ℚ) / 2 by norm_num [toRat]] at this
    exact this.symm
/-- a two-body operator times a triple excitation operator: `NoTriples` holds although the second factor has three
creation and three annihilation operators -/
def jwTriples : OperatorProduct := [mkOp "v" [(2, 0), (0, 2)], mkOp "t" [(0, 3), (3, 0)]]

theorem jwTriples_noTriples : NoTriples exSR jwTriples := by
  intro i j s hi hj hij hc ha
  exfalso
  simp only [jwTriples, List.length_cons, List.length_nil] at hi hj
  by_cases hs : s < 8
  · interval_cases i <;> interval_cases j <;> first | exact hij rfl | (interval_cases s <;> revert hc ha <;> decide)
  · have : (opAt jwTriples i).gm.cre s = 0 := by
      interval_cases i <;> simp [opAt, jwTriples, mkOp, GraphMatrix.cre, gm_get_tab, hs]
    omega

end Wick
end Wicked
