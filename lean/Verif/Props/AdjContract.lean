import Verif.Proofs.AdjSum
import Verif.Props.WickGeneral
import Verif.Proofs.AdjGno
import Verif.Props.OpAlgebra
import Verif.Props.Linked
import Mathlib.Algebra.Star.Rat
import Mathlib.LinearAlgebra.Matrix.ConjTranspose
import Mathlib.Algebra.Star.Module
/-! # C75: contracting the adjoint gives the adjoint of the contraction -/
namespace Wicked
open CppLt CppEq Rational
namespace Wick

theorem adjoint_valid {ns : Nat} (h8 : ns ≤ 8) {p : Operator} (hp : p.Valid ns) : (p.adjoint ns).Valid ns := by
  intro s
  by_cases hs : s < ns
  · rw [(adj_cre h8 p hs).1, (adj_cre h8 p hs).2]
    exact ⟨(hp s).2.1, (hp s).1, fun h => absurd hs (by omega)⟩
  · have : (p.adjoint ns).gm.get s = (0, 0) := by
      unfold Operator.adjoint GraphMatrix.adjoint
      rw [gm_get_tab]
      simp [hs]
    unfold GraphMatrix.cre GraphMatrix.ann
    rw [this]
    simp

theorem adjoint_factor {ns : Nat} (h8 : ns ≤ 8) {p : Operator} (hp : p.Valid ns) : toRat ((p.adjoint ns).factor ns) = toRat (p.factor ns) := by
  rw [(C39_operator_factor hp).2, (C39_operator_factor (adjoint_valid h8 hp)).2, mul_comm]
  congr 3
  · apply List.map_congr_left
    intro s hs
    rw [(adj_cre h8 p (List.mem_range.1 hs)).2]
  · apply List.map_congr_left
    intro s hs
    rw [(adj_cre h8 p (List.mem_range.1 hs)).1]

section
variable {Ω R B : Type} [Inhabited Ω] [DecidableEq Ω] [CommRing R] [Ring B] [Algebra R B]

theorem wickSum_brace (v : OrbSystem Ω R B) (G : antiFun Ω R B) (o : OSI) (m : Int) (ops : OperatorProduct) (minr maxr : Int) (w : Finset (Finset Slot) → Nat) :
    evalAt G (wickSum (gsys v) o m ops minr maxr w) = braceSum v o m ops minr maxr w G.1 := by
  unfold wickSum braceSum
  rw [evalAt_sumOver]
  apply sumOver_congr
  intro x _
  rw [opElements_eq, opElements_eq, map_smul, map_sum, elems_gsys]
  congr 1
  apply Finset.sum_congr rfl
  intro S _
  rw [map_nsmul, gsys_scheme]
  rfl

variable [Algebra ℚ R] [Algebra ℚ B]

/-- the value of a contraction whose left-over operators are put in the brackets `N` -/
theorem contractExpr_brace {o : OSI} {cfg : WickCfg} {E : OpExpr} (h8 : o.spaces.length ≤ 8)
    (hvo : ∀ q ∈ E, ∀ p ∈ q.1, p.Valid o.spaces.length) (hE : ∀ q ∈ E, Canon q.2) {f : Rational} (hf : Canon f) {minr maxr : Int} {e : Expr}
    (h : contractExpr o cfg f E minr maxr = .ok e) {v : OrbSystem Ω R B} (hv : v.Antisymmetric) {N : List (SQType × Ω) → B} (hN : AntisymmFun N) :
    Lin.eval (v.normalValueOf N) e = toRat f • Lin.eval (fun ops => (ops.map (fun p => toRat (p.factor o.spaces.length))).prod •
      braceSum v o cfg.maxCumulant ops minr maxr overcount N) E := by
  have hw := C53_wick_expr_weighted h8 hvo hE hf h (v := gsys v) hv (gsys_anticommute v)
  have he := gsys_eval v ⟨N, show N ∈ antiFun Ω R B from hN⟩ e
  rw [← he, hw]
  clear hw h he
  unfold Lin.eval
  induction E with
  | nil => simp
  | cons q E ih =>
    rw [List.map_cons, List.sum_cons, map_add, ih (fun q hq => hvo q (by simp [hq])) (fun q hq => hE q (by simp [hq])),
      evalAt_rat, wickSum_brace, List.map_cons, List.sum_cons, smul_add, smul_smul, smul_smul, mul_assoc]

theorem star_rat {M : Type} [AddCommGroup M] [StarAddMonoid M] [Module ℚ M] (c : ℚ) (b : M) : star (c • b) = c • star b :=
  map_rat_smul (starAddEquiv : M ≃+ M) c b

variable [StarRing R] [StarRing B] [StarModule R B]

omit [Inhabited Ω] [DecidableEq Ω] [CommRing R] [Ring B] [Algebra R B] [Algebra ℚ R] [Algebra ℚ B] [StarRing R] [StarRing B] [StarModule R B] in
theorem adjoint_expr_valid {ns : Nat} (h8 : ns ≤ 8) {E : OpExpr} (hvo : ∀ q ∈ E, ∀ p ∈ q.1, p.Valid ns) :
    ∀ q ∈ OpExpr.adjoint ns E, ∀ p ∈ q.1, p.Valid ns := by
  refine Lin.mem_fold_add (fun k : OperatorProduct => ∀ p ∈ k, p.Valid ns) (fun q : OperatorProduct × Rational => OperatorProduct.adjoint ns q.1)
    Prod.snd E [] (fun p hp => by cases hp) ?_
  intro q hq p hp
  unfold OperatorProduct.adjoint at hp
  rw [List.mem_reverse, List.mem_map] at hp
  obtain ⟨r, hr, rfl⟩ := hp
  exact adjoint_valid h8 (hvo q hq r hr)

omit [Inhabited Ω] [DecidableEq Ω] [CommRing R] [Ring B] [Algebra R B] [Algebra ℚ R] [Algebra ℚ B] [StarRing R] [StarRing B] [StarModule R B] in
/-- **C44** for operator expressions: every term of the result has a number of operators within the window. -/
theorem C44_rank_window_expr {o : OSI} {cfg : WickCfg} {E : OpExpr} (h8 : o.spaces.length ≤ 8)
    (hvo : ∀ q ∈ E, ∀ p ∈ q.1, p.Valid o.spaces.length) (hE : ∀ q ∈ E, Canon q.2) {f : Rational} (hf : Canon f) {minr maxr : Int} {e : Expr}
    (h : contractExpr o cfg f E minr maxr = .ok e) : ∀ p ∈ e, minr ≤ p.1.ops.length ∧ p.1.ops.length ≤ maxr := by
  rw [contractExpr_eq] at h
  cases hm : E.mapM (m := Except Fault) (fun p => contract o cfg (Rational.mul f p.2) p.1 minr maxr) with
  | error err => rw [hm] at h; cases h
  | ok es =>
    rw [hm] at h
    simp only [bind, Except.bind, pure, Except.pure, Except.ok.injEq] at h
    have hF := (mapM_ok_iff _ _ _).1 hm
    rw [← h]
    have key : ∀ (E : OpExpr) (es : List Expr) (m : Expr), (∀ q ∈ E, ∀ p ∈ q.1, p.Valid o.spaces.length) → (∀ p ∈ E, Canon p.2) →
        (∀ p ∈ m, minr ≤ p.1.ops.length ∧ p.1.ops.length ≤ maxr) →
        List.Forall₂ (fun p e => contract o cfg (Rational.mul f p.2) p.1 minr maxr = .ok e) E es →
        ∀ p ∈ es.foldl (fun r e => Lin.plus r e) m, minr ≤ p.1.ops.length ∧ p.1.ops.length ≤ maxr := by
      intro E es m hvo hE hm hF
      induction hF generalizing m with
      | nil => exact hm
      | @cons p e E es h1 h2 ih =>
        refine ih (Lin.plus m e) (fun q hq => hvo q (by simp [hq])) (fun q hq => hE q (by simp [hq])) ?_
        exact Lin.mem_fold_add (fun k : STerm => minr ≤ k.ops.length ∧ k.ops.length ≤ maxr) (fun q : STerm × Rational => q.1) Prod.snd e m hm
          (C44_rank_window h8 (hvo p (by simp)) (canon_mul hf (hE p (by simp))) h1)
    exact key E es [] hvo hE (by simp) hF

/-- **C75**: `E` and `f` arbitrary, any window, all kinds of spaces. For all orbitals and antisymmetric Hermitian tensors, and all
braces of which the adjoint is that of the adjoint operators in the opposite order: the value of the contraction of the
adjoint of `E` is the adjoint of the value of the contraction of `E`. -/
theorem C75_contract_adjoint {o : OSI} {cfg : WickCfg} {E : OpExpr} (h8 : o.spaces.length ≤ 8) (hE : Built E)
    (hvo : ∀ q ∈ E, ∀ p ∈ q.1, p.Valid o.spaces.length) {f : Rational} (hf : Canon f) {minr maxr : Int} {e e' : Expr}
    (h : contractExpr o cfg f E minr maxr = .ok e) (h' : contractExpr o cfg f (OpExpr.adjoint o.spaces.length E) minr maxr = .ok e')
    {v : OrbSystem Ω R B} (hv : v.Antisymmetric) (hH : v.Hermitian) {N : List (SQType × Ω) → B} (hN : StarBraces N) :
    Lin.eval (v.normalValueOf N) e' = star (Lin.eval (v.normalValueOf N) e) := by
  have hok := (built_wf hE).toOk
  have hok' := (built_wf (Built.mapKeys (OperatorProduct.adjoint o.spaces.length) hE)).toOk
  have hvo' := adjoint_expr_valid h8 hvo
  rw [contractExpr_brace h8 hvo hok.canon hf h hv hN.anticommute, contractExpr_brace h8 hvo' hok'.canon hf h' hv hN.anticommute, star_rat]
  congr 1
  unfold OpExpr.adjoint
  rw [Lin.eval_mapKeys _ (fun a b hab => by rw [eqv_eq.1 hab]) _ hok]
  clear h h' hvo' hok' hok hE
  unfold Lin.eval
  induction E with
  | nil => simp
  | cons q E ih =>
    rw [List.map_cons, List.sum_cons, ih (fun q hq => hvo q (by simp [hq])), List.map_cons, List.sum_cons, star_add, star_rat, star_rat,
      braceSum_adj hH h8 _ _ _ _ hN.adjoint]
    congr 3
    have := hvo q (by simp)
    unfold OperatorProduct.adjoint
    rw [List.map_reverse, List.prod_reverse, List.map_map]
    congr 1
    apply List.map_congr_left
    intro p hp
    exact adjoint_factor h8 (this p hp)

end

/-! ## braces that meet the requirements -/
section
variable {Ω B : Type} [Inhabited Ω] [DecidableEq Ω] [Ring B] [StarRing B]

omit [Inhabited Ω] [DecidableEq Ω] in
theorem kills_flip (hole : Ω → Bool) (m : SQType × Ω) : kills hole (flipMode m) = !kills hole m := by
  rcases m with ⟨s, x⟩
  cases s <;> simp [kills, flipMode]

omit [Inhabited Ω] [DecidableEq Ω] in
theorem normalSign_pair (hole : Ω → Bool) (l : List (SQType × Ω)) :
    normalSign hole l = pairProd (fun a b => if kills hole a = true ∧ kills hole b = false then (-1 : Int) else 1) l := by
  induction l with
  | nil => rfl
  | cons m l ih =>
    rw [normalSign, ih, pairProd]
    congr 1
    cases hm : kills hole m with
    | false => simp
    | true =>
      simp only [true_and, if_true]
      clear ih
      induction l with
      | nil => rfl
      | cons n l ih =>
        rw [List.countP_cons, List.map_cons, List.prod_cons, pow_add, ih]
        cases kills hole n <;> simp

omit [Inhabited Ω] [DecidableEq Ω] in
theorem normalSign_flip (hole : Ω → Bool) (l : List (SQType × Ω)) : normalSign hole (l.map flipMode).reverse = normalSign hole l := by
  rw [normalSign_pair, normalSign_pair, pairProd_reverse, pairProd_map]
  congr 1
  funext a b
  simp only [kills_flip]
  congr 1
  cases kills hole a <;> cases kills hole b <;> simp

omit [Inhabited Ω] [DecidableEq Ω] in
theorem star_ops {op : SQType → Ω → B} (hs : ∀ m : SQType × Ω, star (op m.1 m.2) = op (flipMode m).1 (flipMode m).2) (l : List (SQType × Ω)) :
    star (l.map (fun m => op m.1 m.2)).prod = ((l.map flipMode).reverse.map (fun m => op m.1 m.2)).prod := by
  induction l with
  | nil => simp
  | cons m l ih =>
    rw [List.map_cons, List.prod_cons, star_mul, ih, List.map_cons, List.reverse_cons, List.map_append, List.prod_append, hs]
    simp

/-- **C75**: the normal products with respect to a determinant meet the requirements in every algebra in which the creation operators are
the adjoints of the annihilation operators. -/
theorem C75_normal_products {op : SQType → Ω → B} (hcar : IsCAR op) (hs : ∀ x, star (op .creation x) = op .annihilation x) (hole : Ω → Bool) :
    StarBraces (normalProd hole op) := by
  have hs' : ∀ m : SQType × Ω, star (op m.1 m.2) = op (flipMode m).1 (flipMode m).2 := by
    rintro ⟨s, x⟩
    cases s
    · exact hs x
    · show star (op .annihilation x) = op .creation x
      rw [← hs, star_star]
  refine ⟨?_, ?_⟩
  · intro pre a b post
    let v : OrbSystem Ω ℤ B := ⟨fun _ => ∅, fun _ _ _ => 0, op⟩
    have key : ∀ l, normalProd hole op l = ((l.map (fun m => (wsys v hole).op m.1 m.2)).prod 1).1 := by
      intro l
      rw [← nprod_fst (R := ℤ) hcar hole, ← ops_apply v hole]
    rw [key, key]
    have := wsys_anticommute (v := v) hcar hole a.1 b.1 a.2 b.2
    simp only [List.map_append, List.map_cons, List.prod_append, List.prod_cons]
    rw [← mul_assoc ((wsys v hole).op a.1 a.2), this, ← mul_assoc ((wsys v hole).op b.1 b.2)]
    simp only [Module.End.mul_apply, LinearMap.neg_apply, map_neg, Prod.fst_neg]
  · intro l
    unfold normalProd
    rw [star_mul, star_mul, star_intCast, normalSign_flip, star_ops hs', star_ops hs', (Int.cast_commute _ _).eq]
    congr 3
    · rw [← List.map_reverse, ← List.map_reverse, List.filter_map, ← List.filter_reverse]
      congr 3
      funext m
      simp [kills_flip]
    · rw [← List.map_reverse, ← List.map_reverse, List.filter_map, ← List.filter_reverse]
      congr 3
      funext m
      simp [kills_flip]

omit [Inhabited Ω] in
/-- **C75**: so do the generalised normal products with respect to a Hermitian reference. -/
theorem C75_generalized_products {R : Type} [CommRing R] [StarRing R] [Algebra R B] [StarModule R B] {op : SQType → Ω → B} (hcar : IsCAR op)
    (hs : ∀ x, star (op .creation x) = op .annihilation x) {ρ : Reference Ω R} (hρ : ρ.Antisymmetric) (hH : ρ.Hermitian)
    {N : List (SQType × Ω) → B} (hN : IsGNO op ρ N) : StarBraces N := by
  refine ⟨(C72_gno_properties hcar hρ hN).1, Gno.gno_adj ?_ hH hN⟩
  rintro ⟨s, x⟩
  cases s
  · exact hs x
  · show star (op .annihilation x) = op .creation x
    rw [← hs, star_star]

omit [Inhabited Ω] in
/-- **C75**: the reference of every state with `φ (star b) = star (φ b)` is Hermitian. -/
theorem C75_reference_hermitian {R : Type} [CommRing R] [StarRing R] [Algebra R B] [StarModule R B] {op : SQType → Ω → B}
    (hs : ∀ x, star (op .creation x) = op .annihilation x) {ρ : Reference Ω R} {φ : B →ₗ[R] R} (hφ : IsReferenceState op ρ φ)
    (hreal : ∀ b, φ (star b) = star (φ b)) : ρ.Hermitian := by
  refine Gno.reference_hermitian ?_ hφ hreal
  rintro ⟨s, x⟩
  cases s
  · exact hs x
  · show star (op .annihilation x) = op .creation x
    rw [← hs, star_star]

omit [Inhabited Ω] [StarRing B] in
/-- **C75**: the tensors of a Hermitian reference are Hermitian. -/
theorem C75_reference_tensors {R : Type} [CommRing R] [StarRing R] [Algebra R B] {ρ : Reference Ω R} (hρ : ρ.Hermitian)
    {dom : Int → Finset Ω} {op : SQType → Ω → B} {T₀ : Str → List Ω → List Ω → R} (h₀ : (⟨dom, T₀, op⟩ : OrbSystem Ω R B).Hermitian) :
    (⟨dom, refT ρ T₀, op⟩ : OrbSystem Ω R B).Hermitian := by
  have hm : ∀ (F G : Ω → Ω → R), (∀ p q, star (F p q) = G q p) → ∀ l u : List Ω,
      star (oneBody F l u) = oneBody G u l := by
    intro F G h l u
    rcases l with _ | ⟨a, _ | ⟨b, l⟩⟩ <;> rcases u with _ | ⟨c, _ | ⟨d, u⟩⟩ <;> simp [oneBody, h]
  intro lab l u
  show star (refT ρ T₀ lab l u) = refT ρ T₀ lab u l
  unfold refT
  split
  · exact hm _ _ hρ.1 l u
  · split
    · refine hm _ _ (fun p q => ?_) l u
      rw [star_sub, hρ.1]
      congr 1
      by_cases h : p = q
      · rw [if_pos h, if_pos h.symm, star_one]
      · rw [if_neg h, if_neg (fun e => h e.symm), star_zero]
    · by_cases h : lab = "lambda".toList ++ intStr u.length ∧ l.length = u.length ∧ 2 ≤ u.length
      · obtain ⟨h1, h2, h3⟩ := h
        rw [if_pos ⟨h1, h2, h3⟩, if_pos ⟨by rw [h2]; exact h1, h2.symm, by omega⟩, hρ.2 _ _ (by rw [List.length_reverse, h2]) h3, List.reverse_reverse]
      · rw [if_neg h, if_neg (fun h' => h ⟨by rw [h'.2.1]; exact h'.1, h'.2.1.symm, by have := h'.2; omega⟩)]
        exact h₀ lab l u
end

section
variable {Ω R B : Type} [Inhabited Ω] [DecidableEq Ω] [CommRing R] [Ring B] [Algebra R B] [Algebra ℚ R] [Algebra ℚ B] [StarRing R] [StarRing B] [StarModule R B]

/-- **C75** for normal products with respect to a determinant. -/
theorem C75_contract_adjoint_normal {o : OSI} {cfg : WickCfg} {E : OpExpr} (h8 : o.spaces.length ≤ 8) (hE : Built E)
    (hvo : ∀ q ∈ E, ∀ p ∈ q.1, p.Valid o.spaces.length) {f : Rational} (hf : Canon f) {minr maxr : Int} {e e' : Expr}
    (h : contractExpr o cfg f E minr maxr = .ok e) (h' : contractExpr o cfg f (OpExpr.adjoint o.spaces.length E) minr maxr = .ok e')
    {v : OrbSystem Ω R B} (hv : v.Antisymmetric) (hH : v.Hermitian) (hcar : IsCAR v.op) (hs : ∀ x, star (v.op .creation x) = v.op .annihilation x)
    (hole : Ω → Bool) :
    Lin.eval (v.normalValue hole) e' = star (Lin.eval (v.normalValue hole) e) :=
  C75_contract_adjoint h8 hE hvo hf h h' hv hH (C75_normal_products hcar hs hole)

omit [Ring B] [Algebra R B] [Algebra ℚ B] [StarRing B] [StarModule R B] in
/-- **C75**, full contractions: the scalar obtained from the adjoint of `E` is the complex conjugate of the scalar obtained from `E`. -/
theorem C75_expectation {o : OSI} {cfg : WickCfg} {E : OpExpr} (h8 : o.spaces.length ≤ 8) (hE : Built E)
    (hvo : ∀ q ∈ E, ∀ p ∈ q.1, p.Valid o.spaces.length) {f : Rational} (hf : Canon f) {e e' : Expr}
    (h : contractExpr o cfg f E 0 0 = .ok e) (h' : contractExpr o cfg f (OpExpr.adjoint o.spaces.length E) 0 0 = .ok e')
    {v : OrbSystem Ω R B} (hv : v.Antisymmetric) (hH : v.Hermitian) :
    (∀ p ∈ e, p.1.ops = []) ∧ (∀ p ∈ e', p.1.ops = []) ∧ Lin.eval v.scalarValue e' = star (Lin.eval v.scalarValue e) := by
  have hok := (built_wf hE).toOk
  have hok' := (built_wf (Built.mapKeys (OperatorProduct.adjoint o.spaces.length) hE)).toOk
  have h1 : ∀ p ∈ e, p.1.ops = [] := fun p hp => by
    have := C44_rank_window_expr h8 hvo hok.canon hf h p hp
    exact List.length_eq_zero_iff.1 (by omega)
  have h2 : ∀ p ∈ e', p.1.ops = [] := fun p hp => by
    have := C44_rank_window_expr h8 (adjoint_expr_valid h8 hvo) hok'.canon hf h' p hp
    exact List.length_eq_zero_iff.1 (by omega)
  refine ⟨h1, h2, ?_⟩
  let u : OrbSystem Ω R R := ⟨v.dom, v.T, fun _ _ => 0⟩
  let N : List (SQType × Ω) → R := fun l => if l.isEmpty then 1 else 0
  have hN : StarBraces N := by
    refine ⟨fun pre a b post => ?_, fun l => ?_⟩
    · simp [N]
    · cases l <;> simp [N]
  have key : ∀ e : Expr, (∀ p ∈ e, p.1.ops = []) → Lin.eval (u.normalValueOf N) e = Lin.eval v.scalarValue e := by
    intro e he
    unfold Lin.eval
    congr 1
    apply List.map_congr_left
    intro p hp
    congr 1
    unfold OrbSystem.scalarValue OrbSystem.normalValueOf
    rw [he p hp]
    apply sumOver_congr
    intro σ _
    simp [N, u]
  rw [← key e h1, ← key e' h2]
  exact C75_contract_adjoint h8 hE hvo hf h h' (v := u) hv hH hN

omit [Inhabited Ω] [DecidableEq Ω] [CommRing R] [Ring B] [Algebra R B] [Algebra ℚ R] [Algebra ℚ B] [StarRing R] [StarRing B] [StarModule R B] in
theorem eq_of_isEqual : ∀ {m m' : OpExpr}, (∀ p ∈ m, Canon p.2) → (∀ p ∈ m', Canon p.2) → Lin.isEqual m m' = true → m = m'
  | [], [], _, _, _ => rfl
  | [], p :: m', _, h', hc => by cases hc
  | p :: m, [], h, _, hc => by cases hc
  | p :: m, q :: m', h, h', hc => by
    have hc' : (CppEq.eq p q && listEq m m') = true := hc
    rw [Bool.and_eq_true] at hc'
    have e1 : (CppEq.eq p.1 q.1 && CppEq.eq p.2 q.2) = true := hc'.1
    rw [Bool.and_eq_true] at e1
    have he := eqv_eq.1 (cppEq_iff.1 e1.1)
    have e2 : p.2 = q.2 := by
      exact toRat_inj (h p (by simp)) (h' q (by simp)) ((eq_toRat (h p (by simp)) (h' q (by simp))).1 e1.2)
    rw [eq_of_isEqual (fun p hp => h p (by simp [hp])) (fun p hp => h' p (by simp [hp])) hc'.2]
    congr 1
    exact Prod.ext he e2

omit [Ring B] [Algebra R B] [Algebra ℚ B] [StarRing B] [StarModule R B] in
/-- **C75**: if `E` is equal (`==`) to its adjoint, the expectation value is real. -/
theorem C75_hermitian_real {o : OSI} {cfg : WickCfg} {E : OpExpr} (h8 : o.spaces.length ≤ 8) (hE : Built E)
    (hself : Lin.isEqual (OpExpr.adjoint o.spaces.length E) E = true)
    (hvo : ∀ q ∈ E, ∀ p ∈ q.1, p.Valid o.spaces.length) {f : Rational} (hf : Canon f) {e : Expr}
    (h : contractExpr o cfg f E 0 0 = .ok e) {v : OrbSystem Ω R B} (hv : v.Antisymmetric) (hH : v.Hermitian) :
    star (Lin.eval v.scalarValue e) = Lin.eval v.scalarValue e := by
  have he : OpExpr.adjoint o.spaces.length E = E :=
    eq_of_isEqual (fun p hp => (built_wf (Built.mapKeys (OperatorProduct.adjoint o.spaces.length) hE)).toOk.canon p hp) (fun p hp => (built_wf hE).toOk.canon p hp) hself
  exact (C75_expectation h8 hE hvo hf h (by rw [he]; exact h) hv hH).2.2.symm
end

/-! ## A system that meets the hypotheses -/

theorem jw_hermitian : jwSys.Hermitian := by
  intro lab l u
  show star (if l.length ≤ 1 ∧ u.length ≤ 1 then (1 : ℚ) else 0) = if u.length ≤ 1 ∧ l.length ≤ 1 then 1 else 0
  rw [star_trivial]
  congr 1
  exact propext and_comm

theorem jw_star (x : Bool) : star (jwSys.op .creation x) = jwSys.op .annihilation x := by
  show Matrix.conjTranspose (Matrix.transpose (jwAnn x)) = jwAnn x
  cases x <;> decide +kernel

-- `1/2 f t` and its adjoint: four terms each, and the value is not Hermitian
example : ∃ e e', contractExpr exSR {} ⟨1, 2⟩ (oneProd jwOps) 0 4 = .ok e ∧
    contractExpr exSR {} ⟨1, 2⟩ (OpExpr.adjoint 2 (oneProd jwOps)) 0 4 = .ok e' ∧ e.length = 4 ∧ e'.length = 4 ∧
    Lin.eval (jwSys.normalValue id) e' = star (Lin.eval (jwSys.normalValue id) e) := by
  obtain ⟨e, he, h1⟩ := ok_of_check (x := contractExpr exSR {} ⟨1, 2⟩ (oneProd jwOps) 0 4) (fun e => decide (e.length = 4)) (by decide +kernel)
  obtain ⟨e', he', h2⟩ := ok_of_check (x := contractExpr exSR {} ⟨1, 2⟩ (OpExpr.adjoint 2 (oneProd jwOps)) 0 4) (fun e => decide (e.length = 4)) (by decide +kernel)
  exact ⟨e, e', he, he', of_decide_eq_true h1, of_decide_eq_true h2, C75_contract_adjoint_normal (by decide) (oneProd_built _)
    (fun q hq => by rw [mem_oneProd hq]; exact jwOps_valid) (by constructor <;> decide) he he' jw_anti jw_hermitian jw_car jw_star id⟩

/-- the sum of an operator and its adjoint -/
def exSelf : OpExpr := OpExpr.plus (oneProd [mkOp "f" [(1, 0), (0, 1)]]) (oneProd [mkOp "f" [(0, 1), (1, 0)]])

-- its square is equal to its adjoint and has an expectation value
example : Lin.isEqual (OpExpr.adjoint 2 (OpExpr.mul exSelf exSelf)) (OpExpr.mul exSelf exSelf) = true ∧
    ∃ e, contractExpr exSR {} ⟨1, 2⟩ (OpExpr.mul exSelf exSelf) 0 0 = .ok e ∧ e ≠ [] := by
  refine ⟨by decide +kernel, ?_⟩
  obtain ⟨e, he, h⟩ := ok_of_check (x := contractExpr exSR {} ⟨1, 2⟩ (OpExpr.mul exSelf exSelf) 0 0) (fun e => decide (e.length ≠ 0)) (by decide +kernel)
  exact ⟨e, he, fun h0 => by rw [h0] at h; exact absurd h (by decide)⟩

/-- the correlated state of C72 (half empty, half filled) with Hermitian tensors -/
theorem exG_hermitian : ∃ (v : OrbSystem Bool ℚ (Matrix (Fin 4) (Fin 4) ℚ)) (ρ : Reference Bool ℚ) (N : List (SQType × Bool) → Matrix (Fin 4) (Fin 4) ℚ),
    v.Antisymmetric ∧ v.Hermitian ∧ v.HasReference exG 100 ρ ∧ IsGNO v.op ρ N ∧ IsReferenceState v.op ρ jwMix ∧ StarBraces N := by
  obtain ⟨ρ, h1, h2, h3⟩ := C72_reference_exists jw_car jwMix (by simp [jwMix]; norm_num) jwMix_number
  obtain ⟨N, hN, _⟩ := C72_gno_exists_unique jwOp ρ
  have hH : ρ.Hermitian := C75_reference_hermitian jw_star h2 (fun b => by
    show (1 / 2 : ℚ) * (star (b 0 0) + star (b 3 3)) = star ((1 / 2 : ℚ) * (b 0 0 + b 3 3))
    simp only [star_trivial])
  have ht : ∀ s : Nat, s < exG.spaces.length → exG.spaceType s = .ok .general := by
    intro s hs
    have : s = 0 := by simp only [exG, List.length_cons, List.length_nil] at hs; omega
    subst this; rfl
  refine ⟨⟨fun _ => Finset.univ, refT ρ jwSys.T, jwOp⟩, ρ, N, refT_anti h1 jw_anti, C75_reference_tensors hH jw_hermitian, ⟨?_, ?_, ?_, ?_, ?_, ?_, ?_, ?_, ?_⟩, hN, h2,
    C75_generalized_products jw_car jw_star h1 hH hN⟩
  · intro s s' hs hs' hne; simp only [exG, List.length_cons, List.length_nil] at hs hs'; omega
  · intro s hs h; rw [ht s hs] at h; cases h
  · intro s hs h; rw [ht s hs] at h; cases h
  · intros; rfl
  · intros; rfl
  · intro s _ _ ps qs h h2 _ _; exact refT_lambda ρ _ h h2
  · intro s s' hs hs' hne; simp only [exG, List.length_cons, List.length_nil] at hs hs'; omega
  · intro ps qs _ _ h; exact absurd ⟨0, by decide, rfl, fun _ _ => Finset.mem_univ _, fun _ _ => Finset.mem_univ _⟩ h
  · intro ps qs h; exact cumulant_bounded h1 qs (by simp only [Fintype.card_bool]; omega)

end Wick
end Wicked
