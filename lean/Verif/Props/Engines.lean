import Verif.Proofs.Engines
/-! # C89: the two engines agree -/
namespace Wicked
open CppLt CppEq Rational Lin STerm Wick

/-- every operator index registered and carried by a tensor, no term labelled as normal ordered -/
structure GoodExpr (o : OSI) (e : Expr) : Prop where
  ok : Ok e
  unl : e.Unlabelled
  reg : e.OpsRegistered o
  cov : ∀ p ∈ e, p.1.Covered

theorem mul_terms (a b : Expr) : ∀ t ∈ Lin.mul STerm.cat a b, ∃ p ∈ a, ∃ q ∈ b, t.1 = p.1.cat q.1 := by
  rw [mul_eq_fold]
  refine mem_fold_add (fun t : STerm => ∃ p ∈ a, ∃ q ∈ b, t = p.1.cat q.1) _ _ _ [] (by simp) ?_
  intro b' hb'
  obtain ⟨p, hp, hb'⟩ := List.mem_flatMap.1 hb'
  obtain ⟨q, hq, rfl⟩ := List.mem_map.1 hb'
  exact ⟨p, hp, q, hq, rfl⟩

theorem GoodExpr.mul {o : OSI} {a b : Expr} (ha : GoodExpr o a) (hb : GoodExpr o b) : GoodExpr o (Lin.mul STerm.cat a b) := by
  refine ⟨(mul_spec _ ha.ok hb.ok).1.toOk, unlabelled_mul a b, ?_, ?_⟩
  · intro t ht
    obtain ⟨p, hp, q, hq, h⟩ := mul_terms a b t ht
    rw [h]
    intro x hx
    rcases List.mem_append.1 hx with hx | hx
    · exact ha.reg p hp x hx
    · exact hb.reg q hq x hx
  · intro t ht
    obtain ⟨p, hp, q, hq, h⟩ := mul_terms a b t ht
    rw [h]
    intro x hx
    rcases List.mem_append.1 hx with hx | hx
    · obtain ⟨z, hz, h2⟩ := ha.cov p hp x hx
      exact ⟨z, List.mem_append_left _ hz, h2⟩
    · obtain ⟨z, hz, h2⟩ := hb.cov q hq x hx
      exact ⟨z, List.mem_append_right _ hz, h2⟩

section
variable {Ω R A : Type} [Inhabited Ω] [CommRing R] [Ring A] [Algebra R A] [Algebra ℚ A]

theorem prod_exprs (v : OrbSystem Ω R A) {o : OSI} : ∀ (es : List Expr) (a : Expr), GoodExpr o a → (∀ e ∈ es, GoodExpr o e) → (a :: es).Pairwise NoCommonIndex →
    ∃ X, es.foldlM Expr.mul a = .ok X ∧ GoodExpr o X ∧ Lin.eval v.value X = Lin.eval v.value a * (es.map (Lin.eval v.value)).prod := by
  intro es
  induction es with
  | nil => intro a ha _ _; exact ⟨a, rfl, ha, by simp⟩
  | cons b es ih =>
    intro a ha hes hd
    have hb := hes b (by simp)
    have hm := mul_unlabelled ha.unl hb.unl
    rw [List.pairwise_cons, List.pairwise_cons] at hd
    obtain ⟨X, h1, h2, h3⟩ := ih (Lin.mul STerm.cat a b) (ha.mul hb) (fun e he => hes e (by simp [he])) (by
      rw [List.pairwise_cons]
      refine ⟨?_, hd.2.2⟩
      intro e he t ht q hq i hi
      obtain ⟨p, hp, r, hr, h⟩ := mul_terms a b t ht
      rw [h] at hi
      have : i ∈ (p.1.cat r.1).allIdx.toFinset := List.mem_toFinset.2 hi
      rw [allIdx_cat, Finset.mem_union, List.mem_toFinset, List.mem_toFinset] at this
      rcases this with hi | hi
      · exact hd.1 e (by simp [he]) p hp q hq i hi
      · exact hd.2.1 e he r hr q hq i hi)
    refine ⟨X, ?_, h2, ?_⟩
    · rw [List.foldlM_cons, hm]; exact h1
    · rw [h3, C88_product_of_sums_partial v ha.ok hb.ok hm (hd.1 b (by simp)), List.map_cons, List.prod_cons, mul_assoc]
end


section
variable {Ω R B : Type} [Inhabited Ω] [DecidableEq Ω] [CommRing R] [Ring B] [Algebra R B] [Algebra ℚ B]

theorem writtenOut_value {o : OSI} {v : OrbSystem Ω R B} (hanti : v.Antisymmetric) (hcar : IsCAR v.op) {hole : Ω → Bool} (hvac : v.Vacuum o hole)
    {E : OpExpr} {e : Expr} (h : WrittenOut o.spaces.length E e) (hp : ∀ q ∈ E, ∀ p ∈ q.1, NoSelfContraction o p) :
    Lin.eval v.value e = v.exprValue hole o.spaces.length E := by
  obtain ⟨l, hl, h⟩ := h
  have h1 : Lin.eval v.value e = Lin.eval v.value l := by
    unfold Lin.eval
    exact ((hl.map _).sum_eq).symm
  rw [h1]
  clear h1 hl
  unfold Lin.eval OrbSystem.exprValue
  induction h with
  | nil => rfl
  | @cons q r E l hqr _ ih =>
    rw [List.map_cons, List.map_cons, List.sum_cons, List.sum_cons, ih (fun q' hq' => hp q' (by simp [hq']))]
    congr 1
    obtain ⟨p, hq, hs, hw⟩ := hqr
    rw [value_spelled hanti hcar hvac (hp q (by simp) p (by simp [hq])) hs, hq, hw, smul_smul]
    simp

theorem spells_good {o : OSI} {p : Operator} {t : STerm} (h : Spells o.spaces.length p t) : t.normalOrdered = false ∧ t.OpsRegistered o ∧ t.Covered := by
  obtain ⟨C, A, sym, conj, rfl, hnd, hsp, hcount⟩ := h
  have hidx : ∀ a ∈ C.map (fun i => (⟨.creation, i⟩ : SQOp)) ++ A.map (fun i => ⟨.annihilation, i⟩), a.index ∈ C ++ A := by
    intro a ha
    rcases List.mem_append.1 ha with ha | ha <;> obtain ⟨i, hi, rfl⟩ := List.mem_map.1 ha
    · exact List.mem_append_left _ hi
    · exact List.mem_append_right _ hi
  refine ⟨rfl, ?_, ?_⟩
  · intro a ha
    have := hsp _ (hidx a ha)
    exact ⟨this.1, by omega⟩
  · intro a ha
    refine ⟨_, List.mem_singleton.2 rfl, ?_⟩
    have := hidx a ha
    simpa [List.mem_append] using this

theorem writtenOut_good {o : OSI} {E : OpExpr} {e : Expr} (h : WrittenOut o.spaces.length E e) (he : Ok e) : GoodExpr o e := by
  obtain ⟨l, hl, h⟩ := h
  have key : ∀ r ∈ e, r.1.normalOrdered = false ∧ r.1.OpsRegistered o ∧ r.1.Covered := by
    intro r hr
    obtain ⟨q, _, p, _, hs, _⟩ := forall₂_right h r (hl.mem_iff.2 hr)
    exact spells_good hs
  exact ⟨he, fun r hr => (key r hr).1, fun r hr => (key r hr).2.1, fun r hr => (key r hr).2.2⟩

theorem foldl_mul_value (v : OrbSystem Ω R B) (hole : Ω → Bool) (ns : Nat) : ∀ (Es : List OpExpr) (E : OpExpr), Ok E → (∀ F ∈ Es, Ok F) →
    v.exprValue hole ns (Es.foldl OpExpr.mul E) = v.exprValue hole ns E * (Es.map (v.exprValue hole ns)).prod ∧ Ok (Es.foldl OpExpr.mul E) := by
  intro Es
  induction Es with
  | nil => intro E hE _; exact ⟨by simp, hE⟩
  | cons F Es ih =>
    intro E hE hEs
    have hF := hEs F (by simp)
    obtain ⟨h1, h2⟩ := ih (OpExpr.mul E F) (mul_spec _ hE hF).1.toOk (fun G hG => hEs G (by simp [hG]))
    refine ⟨?_, h2⟩
    rw [List.foldl_cons, h1, List.map_cons, List.prod_cons, ← mul_assoc]
    congr 1
    rw [← valHom_expr, opVal_mul hE hF, map_mul, valHom_expr, valHom_expr]

theorem foldl_mul_valid {P : Operator → Prop} : ∀ (Es : List OpExpr) (E : OpExpr), (∀ q ∈ E, ∀ p ∈ q.1, P p) → (∀ F ∈ Es, ∀ q ∈ F, ∀ p ∈ q.1, P p) →
    ∀ q ∈ Es.foldl OpExpr.mul E, ∀ p ∈ q.1, P p := by
  intro Es
  induction Es with
  | nil => intro E hE _; exact hE
  | cons F Es ih =>
    intro E hE hEs
    refine ih (OpExpr.mul E F) ?_ (fun G hG => hEs G (by simp [hG]))
    show ∀ q ∈ Lin.mul OperatorProduct.mul E F, _
    rw [mul_eq_fold]
    refine mem_fold_add (fun k : OperatorProduct => ∀ p ∈ k, P p) _ _ _ [] (by simp) ?_
    intro b' hb'
    obtain ⟨q, hq, hb'⟩ := List.mem_flatMap.1 hb'
    obtain ⟨r, hr, rfl⟩ := List.mem_map.1 hb'
    intro p hp
    rcases List.mem_append.1 hp with hp | hp
    · exact hE q hq p hp
    · exact hEs F (by simp) r hr p hp

/-- the (anti)commutation relations of a registry with fermionic spaces only -/
theorem ccr_of_car {o : OSI} {v : OrbSystem Ω R B} (hcar : IsCAR v.op) {hole : Ω → Bool} (hvac : v.Vacuum o hole)
    (hferm : ∀ s : Nat, s < o.spaces.length → o.fieldType s = .ok .fermion) (hdelta : ∀ x y, v.T "delta".toList [x] [y] = if x = y then 1 else 0) : v.CCR o := by
  have hf : ∀ s, RegisteredSpace o s → o.fieldType s = .ok .fermion := by
    intro s hs
    have := hferm s.toNat hs.2
    rwa [Int.toNat_of_nonneg hs.1] at this
  have hsign : ∀ s s', RegisteredSpace o s → RegisteredSpace o s' → spaceSign o s s' = -1 := by
    intro s s' hs hs'
    unfold spaceSign
    rw [if_pos ⟨hf s hs, hf s' hs'⟩]
  refine ⟨?_, ?_, ?_, hdelta⟩
  · intro s s' hs hs' x _ y _ k
    rw [hsign s s' hs hs', neg_one_smul]
    exact hcar.same k x y
  · intro s s' hs hs' x _ y _
    rw [hsign s s' hs hs', neg_one_smul, ← hcar.mixed x y]
    abel
  · intro s s' hs hs' hne
    rw [Finset.disjoint_left]
    intro x hx hx'
    have := hvac.disjoint s.toNat s'.toNat hs.2 hs'.2 (by
      intro he
      apply hne
      rw [← Int.toNat_of_nonneg hs.1, ← Int.toNat_of_nonneg hs'.1, he]) x
    rw [Int.toNat_of_nonneg hs.1, Int.toNat_of_nonneg hs'.1] at this
    exact this hx hx'

/-- **C89**, for products without three alike contractions. Let `E, F, ...` be linear combinations of operators of `op()`, and `e, f, ...` the same written out as
expressions without common indices. No operator has creation and annihilation operators in the same occupied space (operators of `op()` are normal ordered with respect to the Fermi vacuum, expressions are not).
Then normal ordering the product `e @ f @ ...` by commuting operators, and contracting the product `E @ F @ ...` by Wick's theorem, give expressions that stand for the same operator: for all fermionic
spaces, numbers of orbitals, antisymmetric tensors and operators with the anticommutation relations. -/
theorem C89_engines_agree_partial {o : OSI} {cfg : WickCfg} (h8 : o.spaces.length ≤ 8) {E : OpExpr} {Es : List OpExpr} {e : Expr} {es : List Expr}
    (hw : List.Forall₂ (WrittenOut o.spaces.length) (E :: Es) (e :: es)) (hE : ∀ F ∈ E :: Es, Ok F) (he : ∀ f ∈ e :: es, Ok f)
    (hd : (e :: es).Pairwise NoCommonIndex)
    (hops : ∀ F ∈ E :: Es, ∀ q ∈ F, ∀ p ∈ q.1, p.Valid o.spaces.length ∧ NoSelfContraction o p)
    (hnt : ∀ q ∈ Es.foldl OpExpr.mul E, NoTriples o q.1)
    {maxr : Int} {Y : Expr} (hY : contractExpr o cfg (Rational.ofInt 1) (Es.foldl OpExpr.mul E) 0 maxr = .ok Y)
    (hmax : ∀ q ∈ Es.foldl OpExpr.mul E, totalOps o.spaces.length q.1 ≤ maxr)
    {v : OrbSystem Ω R B} (hanti : v.Antisymmetric) (hcar : IsCAR v.op) {hole : Ω → Bool} (hvac : v.Vacuum o hole)
    (hferm : ∀ s : Nat, s < o.spaces.length → o.fieldType s = .ok .fermion) (hdelta : ∀ x y, v.T "delta".toList [x] [y] = if x = y then 1 else 0) :
    ∃ X N, es.foldlM Expr.mul e = .ok X ∧ X.vacuumNormalOrdered o false = .ok N ∧
      Lin.eval v.value N = Lin.eval (v.normalValue hole) Y := by
  have hgood : ∀ f ∈ e :: es, GoodExpr o f := by
    intro f hf
    obtain ⟨F, _, hFf⟩ := forall₂_right hw f hf
    exact writtenOut_good hFf (he f hf)
  obtain ⟨X, hX, hXg, hXv⟩ := prod_exprs v es e (hgood e (by simp)) (fun f hf => hgood f (by simp [hf])) hd
  obtain ⟨N, hN, hNv⟩ := C65_summed_value_partial (ccr_of_car hcar hvac hferm hdelta) hXg.ok hXg.reg hXg.unl (fun p hp => pairsCarried_of_covered (hXg.cov p hp))
  refine ⟨X, N, hX, hN, ?_⟩
  obtain ⟨h1, h2⟩ := foldl_mul_value v hole o.spaces.length Es E (hE E (by simp)) (fun F hF => hE F (by simp [hF]))
  have hval := foldl_mul_valid (P := fun p => p.Valid o.spaces.length) Es E (fun q hq p hp => (hops E (by simp) q hq p hp).1) (fun F hF q hq p hp => (hops F (by simp [hF]) q hq p hp).1)
  have hR := C53_operator_product_expr_partial h8 hval hnt h2.canon (canon_ofInt 1) hY (le_refl 0) hmax hanti hcar hvac
  rw [hNv, hXv, hR]
  have h3 : ∀ x : B, toRat (Rational.ofInt 1) • x = x := by
    intro x; rw [toRat_ofInt]; simp
  rw [h3]
  change _ = v.exprValue hole o.spaces.length _
  rw [h1]
  have hpw : ((e :: es).map (Lin.eval v.value)) = (E :: Es).map (v.exprValue hole o.spaces.length) := by
    have key : ∀ (Fs : List OpExpr) (fs : List Expr), List.Forall₂ (WrittenOut o.spaces.length) Fs fs → (∀ F ∈ Fs, ∀ q ∈ F, ∀ p ∈ q.1, NoSelfContraction o p) →
        fs.map (Lin.eval v.value) = Fs.map (v.exprValue hole o.spaces.length) := by
      intro Fs fs h
      induction h with
      | nil => intro _; rfl
      | @cons F f Fs fs hFf _ ih =>
        intro hp
        rw [List.map_cons, List.map_cons, ih (fun G hG => hp G (by simp [hG])), writtenOut_value hanti hcar hvac hFf (hp F (by simp))]
    exact key _ _ hw (fun F hF q hq p hp => (hops F hF q hq p hp).2)
  rw [List.map_cons, List.map_cons, List.cons.injEq] at hpw
  rw [hpw.1, hpw.2]
end

/-! ### non-vacuity -/

/-- `jwSys` with `delta` as the Kronecker delta -/
def jwDelta : OrbSystem Bool ℚ (Matrix (Fin 4) (Fin 4) ℚ) :=
  ⟨jwSys.dom, fun lab l u => if l.length ≤ 1 ∧ u.length ≤ 1 then (if lab = "delta".toList ∧ l ≠ u then 0 else 1) else 0, jwOp⟩

theorem jwDelta_anti : jwDelta.Antisymmetric := by
  intro lab
  refine ⟨fun pre a b post u => ?_, fun l pre a b post => ?_⟩
  · simp only [jwDelta, List.length_append, List.length_cons]
    rw [if_neg (by omega), if_neg (by omega)]; simp
  · simp only [jwDelta, List.length_append, List.length_cons]
    rw [if_neg (by omega), if_neg (by omega)]; simp

def engE : OpExpr := [([mkOp "f" [(1, 0), (0, 1)]], ⟨1, 2⟩)]
def engF : OpExpr := [([mkOp "t" [(0, 1), (1, 0)]], ⟨1, 1⟩)]
/-- `1/2 f^{v0}_{o0} a+(o0) a(v0)` -/
def enge : Expr := [(⟨false, [⟨.creation, ⟨0, 0⟩⟩, ⟨.annihilation, ⟨1, 0⟩⟩], [⟨['f'], [⟨0, 0⟩], [⟨1, 0⟩], .antisymmetric, false⟩]⟩, ⟨1, 2⟩)]
/-- `t^{o1}_{v1} a+(v1) a(o1)` -/
def engf : Expr := [(⟨false, [⟨.creation, ⟨1, 1⟩⟩, ⟨.annihilation, ⟨0, 1⟩⟩], [⟨['t'], [⟨1, 1⟩], [⟨0, 1⟩], .antisymmetric, false⟩]⟩, ⟨1, 1⟩)]

example : ∃ X N Y, Expr.mul enge engf = .ok X ∧ X.vacuumNormalOrdered exSR false = .ok N ∧ contractExpr exSR {} (Rational.ofInt 1) (OpExpr.mul engE engF) 0 4 = .ok Y ∧
    Y.length = 4 ∧ N.length = 2 ∧ Lin.eval jwDelta.value N = Lin.eval (jwDelta.normalValue id) Y := by
  obtain ⟨Y, hY, hYl⟩ := ok_of_check (x := contractExpr exSR {} (Rational.ofInt 1) (OpExpr.mul engE engF) 0 4) (fun e => decide (e.length = 4)) (by decide +kernel)
  have hnl : ((Expr.mul enge engf).bind (fun X => X.vacuumNormalOrdered exSR false)).toOption.map List.length = some 2 := by decide +kernel
  have hc1 : Canon ⟨1, 1⟩ := by constructor <;> decide
  have hc2 : Canon ⟨1, 2⟩ := by constructor <;> decide
  have hsp1 : Spells 2 (mkOp "f" [(1, 0), (0, 1)]) ⟨false, [⟨.creation, ⟨0, 0⟩⟩, ⟨.annihilation, ⟨1, 0⟩⟩], [⟨['f'], [⟨0, 0⟩], [⟨1, 0⟩], .antisymmetric, false⟩]⟩ := by
    refine ⟨[⟨0, 0⟩], [⟨1, 0⟩], .antisymmetric, false, rfl, by decide, by decide, ?_⟩
    intro s hs
    interval_cases s <;> decide
  have hsp2 : Spells 2 (mkOp "t" [(0, 1), (1, 0)]) ⟨false, [⟨.creation, ⟨1, 1⟩⟩, ⟨.annihilation, ⟨0, 1⟩⟩], [⟨['t'], [⟨1, 1⟩], [⟨0, 1⟩], .antisymmetric, false⟩]⟩ := by
    refine ⟨[⟨1, 1⟩], [⟨0, 1⟩], .antisymmetric, false, rfl, by decide, by decide, ?_⟩
    intro s hs
    interval_cases s <;> decide
  have hops : ∀ F ∈ engE :: [engF], ∀ q ∈ F, ∀ p ∈ q.1, p ∈ jwOps := by
    intro F hF q hq p hp
    rcases List.mem_cons.1 hF with rfl | hF
    · rw [engE, List.mem_singleton] at hq; subst hq
      rw [List.mem_singleton] at hp; subst hp
      simp [jwOps]
    · rw [List.mem_singleton] at hF; subst hF
      rw [engF, List.mem_singleton] at hq; subst hq
      rw [List.mem_singleton] at hp; subst hp
      simp [jwOps]
  have hprod := foldl_mul_valid (P := fun p => p ∈ jwOps) [engF] engE (hops _ (by simp)) (fun F hF => hops F (by simp_all))
  obtain ⟨X, N, h1, h2, h3⟩ := C89_engines_agree_partial (o := exSR) (cfg := {}) (E := engE) (Es := [engF]) (e := enge) (es := [engf]) (by decide)
    (.cons ⟨enge, List.Perm.refl _, .cons ⟨_, rfl, hsp1, by decide +kernel⟩ .nil⟩ (.cons ⟨engf, List.Perm.refl _, .cons ⟨_, rfl, hsp2, by decide +kernel⟩ .nil⟩ .nil))
    (by
      intro F hF
      rcases List.mem_cons.1 hF with rfl | hF
      · exact ⟨by decide, by intro p hp; rw [engE, List.mem_singleton] at hp; subst hp; exact hc2⟩
      · rw [List.mem_singleton] at hF; subst hF
        exact ⟨by decide, by intro p hp; rw [engF, List.mem_singleton] at hp; subst hp; exact hc1⟩)
    (by
      intro F hF
      rcases List.mem_cons.1 hF with rfl | hF
      · exact ⟨by decide, by intro p hp; rw [enge, List.mem_singleton] at hp; subst hp; exact hc2⟩
      · rw [List.mem_singleton] at hF; subst hF
        exact ⟨by decide, by intro p hp; rw [engf, List.mem_singleton] at hp; subst hp; exact hc1⟩)
    (by unfold NoCommonIndex; decide)
    (by
      intro F hF q hq p hp
      refine ⟨jwOps_valid p (hops F hF q hq p hp), ?_⟩
      have : ∀ p ∈ jwOps, NoSelfContraction exSR p := by
        unfold NoSelfContraction; decide +kernel
      exact this p (hops F hF q hq p hp))
    (fun q hq => noTriples_of_two (fun p hp s => jwOps_two p (hprod q hq p hp) s))
    (maxr := 4) hY (by decide +kernel) jwDelta_anti jw_car (hole := id) ⟨jw_vacuum.kind, jw_vacuum.disjoint⟩ (by decide +kernel) (by decide +kernel)
  refine ⟨X, N, Y, h1, h2, hY, of_decide_eq_true hYl, ?_, h3⟩
  have h1' : Expr.mul enge engf = .ok X := h1
  rw [h1'] at hnl
  change (Expr.vacuumNormalOrdered exSR false X).toOption.map List.length = some 2 at hnl
  rw [h2] at hnl
  simpa [Except.toOption] using hnl

end Wicked
