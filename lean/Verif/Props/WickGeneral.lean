import Verif.Spec.Gno
import Verif.Proofs.GnoSum
import Verif.Proofs.GnoCum
import Verif.Props.WickProduct
/-! # C72: `contract` and generalised normal order (general spaces) -/
namespace Wicked
open CppLt CppEq Rational
namespace Wick
open Gno

section
variable {Ω R B : Type} [Inhabited Ω] [DecidableEq Ω] [CommRing R] [Ring B] [Algebra R B]

/-- the cumulants of a reference the package can describe are antisymmetric -/
theorem antiCum {v : OrbSystem Ω R B} (hv : v.Antisymmetric) {o : OSI} {m : Int} {ρ : Reference Ω R} (href : v.HasReference o m ρ) : AntiCum ρ := by
  refine ⟨?_, ?_⟩
  · intro pre a b post u hl
    have hl' : (pre ++ b :: a :: post).length = u.length := by
      rw [← hl]; simp only [List.length_append, List.length_cons]
    have h2 : 2 ≤ (pre ++ a :: b :: post).length := by simp only [List.length_append, List.length_cons]; omega
    have h2' : 2 ≤ (pre ++ b :: a :: post).length := by simp only [List.length_append, List.length_cons]; omega
    have hp : (pre ++ a :: b :: post).Perm (pre ++ b :: a :: post) := (List.Perm.swap b a post).append_left pre
    by_cases h : ∃ s : Nat, s < o.spaces.length ∧ o.spaceType s = .ok .general ∧ (∀ p ∈ pre ++ a :: b :: post, p ∈ v.dom s) ∧ (∀ q ∈ u, q ∈ v.dom s)
    · obtain ⟨s, hs, ht, h3, h4⟩ := h
      rw [← href.lambda s hs ht _ _ hl h2 h3 h4, ← href.lambda s hs ht _ _ hl' h2' (fun p hq => h3 p (hp.mem_iff.2 hq)) h4, hl, hl']
      exact (hv _).2 _ _ _ _ _
    · rw [href.uncorrelated _ _ hl h2 h, href.uncorrelated _ _ hl' h2', neg_zero]
      rintro ⟨s, hs, ht, h3, h4⟩
      exact h ⟨s, hs, ht, fun p hq => h3 p (hp.mem_iff.1 hq), h4⟩
  · intro l pre a b post hl
    have hl' : l.length = (pre ++ b :: a :: post).length := by
      rw [hl]; simp only [List.length_append, List.length_cons]
    have h2 : 2 ≤ l.length := by rw [hl]; simp only [List.length_append, List.length_cons]; omega
    have hp : (pre ++ a :: b :: post).Perm (pre ++ b :: a :: post) := (List.Perm.swap b a post).append_left pre
    by_cases h : ∃ s : Nat, s < o.spaces.length ∧ o.spaceType s = .ok .general ∧ (∀ p ∈ l, p ∈ v.dom s) ∧ (∀ q ∈ pre ++ a :: b :: post, q ∈ v.dom s)
    · obtain ⟨s, hs, ht, h3, h4⟩ := h
      rw [← href.lambda s hs ht _ _ hl h2 h3 h4, ← href.lambda s hs ht _ _ hl' h2 h3 (fun p hq => h4 p (hp.mem_iff.2 hq))]
      simp only [List.reverse_append, List.reverse_cons, List.append_assoc, List.singleton_append, List.cons_append, List.nil_append]
      exact (hv _).1 _ _ _ _ _
    · rw [href.uncorrelated _ _ hl h2 h, href.uncorrelated _ _ hl' h2, neg_zero]
      rintro ⟨s, hs, ht, h3, h4⟩
      exact h ⟨s, hs, ht, h3, fun p hq => h4 p (hp.mem_iff.1 hq)⟩

/-- antisymmetric functions of lists of operators -/
def antiFun (Ω R B : Type) [CommRing R] [Ring B] [Algebra R B] : Submodule R (List (SQType × Ω) → B) where
  carrier := {F | AntisymmFun F}
  add_mem' := by
    intro F G hF hG pre a b post
    rw [Pi.add_apply, Pi.add_apply, hF, hG, neg_add]
  zero_mem' := by
    intro pre a b post
    simp
  smul_mem' := by
    intro c F hF pre a b post
    rw [Pi.smul_apply, Pi.smul_apply, hF, smul_neg]

/-- an operator acts by being appended -/
def appendOp (R B : Type) [CommRing R] [Ring B] [Algebra R B] (m : SQType × Ω) : Module.End R (antiFun Ω R B) where
  toFun F := ⟨fun l => F.1 (l ++ [m]), by
    intro pre a b post
    have := F.2 pre a b (post ++ [m])
    simpa using this⟩
  map_add' _ _ := rfl
  map_smul' _ _ := rfl

/-- the system in which operators act by being appended -/
def gsys (v : OrbSystem Ω R B) : OrbSystem Ω R (Module.End R (antiFun Ω R B)) := ⟨v.dom, v.T, fun s x => appendOp R B (s, x)⟩

omit [Inhabited Ω] [DecidableEq Ω] in
theorem gsys_anticommute (v : OrbSystem Ω R B) : (gsys v).Anticommute := by
  intro s s' x y
  apply LinearMap.ext
  intro F
  apply Subtype.ext
  funext l
  show F.1 ((l ++ [(s, x)]) ++ [(s', y)]) = - F.1 ((l ++ [(s', y)]) ++ [(s, x)])
  have := F.2 l (s, x) (s', y) []
  simpa using this

omit [Inhabited Ω] [DecidableEq Ω] in
theorem gsys_ops (v : OrbSystem Ω R B) (F : antiFun Ω R B) (l : List (SQType × Ω)) : ∀ k, (((l.map (fun m => (gsys v).op m.1 m.2)).prod F : antiFun Ω R B).1 k) = F.1 (k ++ l) := by
  induction l with
  | nil => intro k; simp
  | cons m l ih =>
    intro k
    rw [List.map_cons, List.prod_cons, Module.End.mul_apply]
    show (((l.map (fun m => (gsys v).op m.1 m.2)).prod F : antiFun Ω R B).1 (k ++ [m])) = _
    rw [ih]; simp

/-- evaluation at the normal products `N`, without further operators -/
def evalAt (F : antiFun Ω R B) : Module.End R (antiFun Ω R B) →ₗ[R] B where
  toFun A := (A F).1 []
  map_add' _ _ := rfl
  map_smul' _ _ := rfl

theorem evalAt_sumOver {ι : Type} [DecidableEq ι] (G : antiFun Ω R B) (S : Finset ι) (d : ι → Finset Ω) (F : (ι → Ω) → Module.End R (antiFun Ω R B)) :
    evalAt G (sumOver S d F) = sumOver S d (fun x => evalAt G (F x)) := by
  unfold sumOver
  rw [map_sum]

theorem gsys_value (v : OrbSystem Ω R B) (G : antiFun Ω R B) (t : STerm) : evalAt G ((gsys v).value t) = v.normalValueOf G.1 t := by
  rw [value_sumOver, evalAt_sumOver]
  unfold OrbSystem.normalValueOf
  apply sumOver_congr
  intro σ _
  unfold OrbSystem.inst
  rw [map_smul]
  congr 1
  have := gsys_ops v G (t.ops.map (fun a => (a.type, σ a.index))) []
  rw [List.map_map, List.nil_append] at this
  exact this

theorem gsys_scheme (v : OrbSystem Ω R B) (G : antiFun Ω R B) (o : OSI) (L : List Slot) (x : Slot → Ω) (S : Finset (Finset Slot)) :
    evalAt G (schemeTerm (gsys v) o L x S) =
      (((orderSign L (S.toList.flatMap (conOrder L) ++ leftOver L S) : Int) : R) * ∏ b ∈ S, conVal (gsys v) o L x b) • G.1 ((leftOver L S).map (modeOf x)) := by
  unfold schemeTerm
  rw [map_smul]
  congr 1
  have := gsys_ops v G ((leftOver L S).map (modeOf x)) []
  rw [List.map_map, List.nil_append] at this
  exact this

theorem elems_gsys (v : OrbSystem Ω R B) (ns : Nat) (ops : OperatorProduct) (x : Slot → Ω) :
    ∀ k, elemsFrom (gsys v) ns k ops x = elemsFrom v ns k ops x := by
  induction ops with
  | nil => intro k; rfl
  | cons p ops ih => intro k; rw [elemsFrom, elemsFrom, ih]; rfl

theorem wickSum_gno {v : OrbSystem Ω R B} {o : OSI} {m : Int} {ρ : Reference Ω R} (href : v.HasReference o m ρ) (hm1 : 1 ≤ m) (G : antiFun Ω R B) (hN : IsGNO v.op ρ G.1)
    (ops : OperatorProduct) {minr maxr : Int} (hmin : minr ≤ 0) (hmax : ((slots o.spaces.length ops).length : Int) ≤ maxr) :
    evalAt G (wickSum (gsys v) o m ops minr maxr (fun _ => 1)) = (ops.map (opSum v G.1 o.spaces.length 0)).prod := by
  unfold wickSum
  rw [evalAt_sumOver, ← sum_factors v G.1 o.spaces.length ops 0]
  apply sumOver_congr
  intro x hx
  have hx' : ∀ y ∈ slots o.spaces.length ops, x y ∈ v.dom y.space := fun y hy => hx y (List.mem_toFinset.2 hy)
  rw [opElements_eq, map_smul, map_sum]
  simp only [one_smul]
  rw [Finset.sum_congr rfl (fun S _ => gsys_scheme v G o _ x S), schemes_gno hN href hm1 hx' hmin hmax (gsys v) rfl, elems_gsys]
  rfl
end

section
variable {Ω R B : Type} [Inhabited Ω] [DecidableEq Ω] [CommRing R] [Ring B] [Algebra R B] [Algebra ℚ R] [Algebra ℚ B]

theorem opValueOf_prod {v : OrbSystem Ω R B} {ns : Nat} {N : List (SQType × Ω) → B} {ops : OperatorProduct} (hvo : ∀ p ∈ ops, p.Valid ns) :
    (ops.map (v.opValueOf N ns)).prod = (ops.map (fun p => toRat (p.factor ns))).prod • (ops.map (opSum v N ns 0)).prod := by
  induction ops with
  | nil => simp
  | cons p ops ih =>
    simp only [List.map_cons, List.prod_cons]
    rw [ih (fun q hq => hvo q (by simp [hq])), ← smul_mul_smul_comm, (C39_operator_factor (hvo p (by simp))).2]
    rfl

theorem evalAt_rat (G : antiFun Ω R B) (c : ℚ) (A : Module.End R (antiFun Ω R B)) : evalAt G (c • A) = c • evalAt G A := map_rat_smul (evalAt G) c A

theorem gsys_eval (v : OrbSystem Ω R B) (G : antiFun Ω R B) (e : Expr) : evalAt G (Lin.eval (gsys v).value e) = Lin.eval (v.normalValueOf G.1) e := by
  unfold Lin.eval
  induction e with
  | nil => exact map_zero _
  | cons p e ih =>
    rw [List.map_cons, List.sum_cons, List.map_cons, List.sum_cons, map_add, ih, evalAt_rat, gsys_value]

/-- **C72**: the spaces may be occupied, unoccupied or general, and the reference any reference whose contractions are
the tensors `gamma1`, `eta1`, `lambda2`, ... of the package (`HasReference`). Let no three alike contractions be possible
(`NoTriples`), and let the window contain all ranks. Then in every algebra with the canonical anticommutation
relations, for all orbitals and antisymmetric tensors, the sum of the terms of the result, their operators read as
generalised normal products with respect to the reference, is `f` times the product of the operators. Missing with
respect to the full claim: products in which three alike contractions are possible, for which it is false
(`C53_three_body_doubled`). -/
theorem C72_generalized_product_partial {o : OSI} {cfg : WickCfg} {ops : OperatorProduct} (h8 : o.spaces.length ≤ 8)
    (hvo : ∀ p ∈ ops, p.Valid o.spaces.length) (h2 : NoTriples o ops) (hmc : 1 ≤ cfg.maxCumulant) {f : Rational} (hf : Canon f) {minr maxr : Int} {e : Expr}
    (h : contract o cfg f ops minr maxr = .ok e) (hmin : minr ≤ 0) (hmax : totalOps o.spaces.length ops ≤ maxr)
    {v : OrbSystem Ω R B} (hv : v.Antisymmetric) (hcar : IsCAR v.op) {ρ : Reference Ω R} (href : v.HasReference o cfg.maxCumulant ρ)
    {N : List (SQType × Ω) → B} (hN : IsGNO v.op ρ N) :
    Lin.eval (v.normalValueOf N) e = toRat f • (ops.map (v.opValueOf N o.spaces.length)).prod := by
  rw [← length_slots hvo] at hmax
  have hanti : AntisymmFun N := gno_antisymm hcar (antiCum hv href) hN
  have hw := C53_wick_partial h8 hvo h2 hf h (v := gsys v) hv (gsys_anticommute v)
  have he := gsys_eval v ⟨N, show N ∈ antiFun Ω R B from hanti⟩ e
  rw [← he, hw, evalAt_rat, wickSum_gno href hmc ⟨N, show N ∈ antiFun Ω R B from hanti⟩ hN ops hmin hmax, opValueOf_prod hvo, smul_smul]

/-- **C72** for operator expressions. -/
theorem C72_generalized_product_expr_partial {o : OSI} {cfg : WickCfg} {E : OpExpr} (h8 : o.spaces.length ≤ 8)
    (hvo : ∀ q ∈ E, ∀ p ∈ q.1, p.Valid o.spaces.length) (h2 : ∀ q ∈ E, NoTriples o q.1) (hE : ∀ q ∈ E, Canon q.2) (hmc : 1 ≤ cfg.maxCumulant)
    {f : Rational} (hf : Canon f) {minr maxr : Int} {e : Expr}
    (h : contractExpr o cfg f E minr maxr = .ok e) (hmin : minr ≤ 0) (hmax : ∀ q ∈ E, totalOps o.spaces.length q.1 ≤ maxr)
    {v : OrbSystem Ω R B} (hv : v.Antisymmetric) (hcar : IsCAR v.op) {ρ : Reference Ω R} (href : v.HasReference o cfg.maxCumulant ρ)
    {N : List (SQType × Ω) → B} (hN : IsGNO v.op ρ N) :
    Lin.eval (v.normalValueOf N) e = toRat f • (E.map (fun q => toRat q.2 • (q.1.map (v.opValueOf N o.spaces.length)).prod)).sum := by
  have hanti : AntisymmFun N := gno_antisymm hcar (antiCum hv href) hN
  have hw := C53_wick_expr_partial h8 hvo h2 hE hf h (v := gsys v) hv (gsys_anticommute v)
  have he := gsys_eval v ⟨N, show N ∈ antiFun Ω R B from hanti⟩ e
  rw [← he, hw]
  clear hw h h2 he
  induction E with
  | nil => simp
  | cons q E ih =>
    have hm := hmax q (by simp)
    rw [← length_slots (hvo q (by simp))] at hm
    rw [List.map_cons, List.sum_cons, map_add, ih (fun q hq => hvo q (by simp [hq])) (fun q hq => hE q (by simp [hq])) (fun q hq => hmax q (by simp [hq])),
      evalAt_rat, wickSum_gno href hmc ⟨N, show N ∈ antiFun Ω R B from hanti⟩ hN q.1 hmin hm, List.map_cons, List.sum_cons, smul_add,
      opValueOf_prod (hvo q (by simp)), smul_smul, smul_smul, mul_assoc]

/-! ## expectation values -/

theorem wickSum_state {v : OrbSystem Ω R B} {o : OSI} {m : Int} {ρ : Reference Ω R} (href : v.HasReference o m ρ) (hm1 : 1 ≤ m) (G : antiFun Ω R B) (hN : IsGNO v.op ρ G.1)
    (ops : OperatorProduct) {φ : B →ₗ[R] R} (hφ : IsReferenceState v.op ρ φ) :
    φ (evalAt G (wickSum (gsys v) o m ops 0 0 (fun _ => 1))) = φ (ops.map (opSum v G.1 o.spaces.length 0)).prod := by
  rw [← wickSum_gno href hm1 G hN ops le_rfl le_rfl]
  unfold wickSum
  rw [evalAt_sumOver, evalAt_sumOver]
  unfold sumOver
  rw [map_sum, map_sum]
  apply Finset.sum_congr rfl
  intro σ _
  simp only [one_smul, map_smul, map_sum]
  congr 1
  have hn := nodup_slots o.spaces.length ops
  apply Finset.sum_subset
  · intro S hS
    rw [mem_schemes] at hS ⊢
    obtain ⟨h1, h2, h3, h4, h5⟩ := hS
    exact ⟨h1, h2, h3, h4, by omega⟩
  · intro S hS hS'
    rw [mem_schemes] at hS hS'
    obtain ⟨h1, h2, h3, h4, h5⟩ := hS
    have hne : leftOver (slots o.spaces.length ops) S ≠ [] := by
      apply leftOver_ne (con := IsContraction o m) hn (mem_pairSets.2 ⟨h1, h2, h3⟩)
      intro he
      exact hS' ⟨h1, h2, h3, by omega, by omega⟩
    rw [gsys_scheme, map_smul, gno_expectation hN hφ, if_neg (by simpa using hne), smul_zero]

/-- **C72**, expectation values: with the window `0 .. 0` (full contractions) the result has no operators, and the sum of
its terms is the expectation value, in every state with this reference, of `f` times the product of the operators. -/
theorem C72_expectation_partial {o : OSI} {cfg : WickCfg} {ops : OperatorProduct} (h8 : o.spaces.length ≤ 8)
    (hvo : ∀ p ∈ ops, p.Valid o.spaces.length) (h2 : NoTriples o ops) (hmc : 1 ≤ cfg.maxCumulant) {f : Rational} (hf : Canon f) {e : Expr}
    (h : contract o cfg f ops 0 0 = .ok e)
    {v : OrbSystem Ω R B} (hv : v.Antisymmetric) (hcar : IsCAR v.op) {ρ : Reference Ω R} (href : v.HasReference o cfg.maxCumulant ρ)
    {N : List (SQType × Ω) → B} (hN : IsGNO v.op ρ N) {φ : B →ₗ[R] R} (hφ : IsReferenceState v.op ρ φ) :
    (∀ p ∈ e, p.1.ops = []) ∧ Lin.eval v.scalarValue e = φ (toRat f • (ops.map (v.opValueOf N o.spaces.length)).prod) := by
  have hops : ∀ p ∈ e, p.1.ops = [] := by
    intro p hp
    have := C44_rank_window h8 hvo hf h p hp
    exact List.length_eq_zero_iff.1 (by omega)
  refine ⟨hops, ?_⟩
  have hanti : AntisymmFun N := gno_antisymm hcar (antiCum hv href) hN
  have hq : ∀ (c : ℚ) (b : B), φ (c • b) = c • φ b := fun c b => map_rat_smul φ c b
  have hw := C53_wick_partial h8 hvo h2 hf h (v := gsys v) hv (gsys_anticommute v)
  have he := gsys_eval v ⟨N, show N ∈ antiFun Ω R B from hanti⟩ e
  have hev : Lin.eval v.scalarValue e = φ (Lin.eval (v.normalValueOf N) e) := by
    clear h hw he
    unfold Lin.eval
    induction e with
    | nil => simp
    | cons p e ih =>
      rw [List.map_cons, List.sum_cons, List.map_cons, List.sum_cons, map_add, hq, ← ih (fun q hq => hops q (by simp [hq]))]
      congr 2
      unfold OrbSystem.scalarValue OrbSystem.normalValueOf sumOver
      rw [map_sum]
      apply Finset.sum_congr rfl
      intro σ _
      beta_reduce
      rw [hops p (by simp), map_smul, List.map_nil, gno_expectation hN hφ, smul_eq_mul]
      simp
  rw [hev, ← he, hw, evalAt_rat, hq, wickSum_state href hmc ⟨N, show N ∈ antiFun Ω R B from hanti⟩ hN ops hφ, opValueOf_prod hvo, smul_smul, hq]
end

/-! ## every state has a reference, generalised normal products and tensors -/
section
variable {Ω R B : Type} [DecidableEq Ω] [CommRing R] [Ring B] [Algebra R B]

/-- **C72**, nothing is assumed about the state: every normalised expectation value that vanishes on products that do
not conserve the number of particles has a density matrix and cumulants, and they are antisymmetric. -/
theorem C72_reference_exists {op : SQType → Ω → B} (hcar : IsCAR op) (φ : B →ₗ[R] R) (h1 : φ 1 = 1)
    (hnum : ∀ l : List (SQType × Ω), (creOrbs l).length ≠ (annOrbs l).length → φ (l.map (fun m => op m.1 m.2)).prod = 0) :
    ∃ ρ : Reference Ω R, ρ.Antisymmetric ∧ IsReferenceState op ρ φ ∧ ∀ p q, ρ.gamma p q = φ (op .creation p * op .annihilation q) := by
  obtain ⟨h2, h3⟩ := refOf_spec (P := fun l => φ (l.map (fun m => op m.1 m.2)).prod) (by simpa using h1) hnum (by
    intro pre x y post
    beta_reduce
    rw [← map_add, prod_acom (R := R) hcar, map_smul])
  exact ⟨_, h2, h3, fun p q => by simp [refOf]⟩

/-- **C72**: for every reference there is exactly one family of generalised normal products. -/
theorem C72_gno_exists_unique (op : SQType → Ω → B) (ρ : Reference Ω R) : ∃! N : List (SQType × Ω) → B, IsGNO op ρ N := by
  have h : ∀ l, (l.map (fun m => op m.1 m.2)).prod = conSum ρ.contraction (normalRec ρ.contraction (fun l => (l.map (fun m => op m.1 m.2)).prod)) l :=
    fun l => normalRec_spec ρ.contraction (fun l => (l.map (fun m => op m.1 m.2)).prod) l
  exact ⟨_, h, fun N hN => normal_unique (κ := ρ.contraction) (P := fun l => (l.map (fun m : SQType × Ω => op m.1 m.2)).prod) hN h⟩

/-- **C72**: generalised normal products change sign when two neighbouring operators are exchanged, and have no expectation
value in a state with the reference (unless they are empty). -/
theorem C72_gno_properties {op : SQType → Ω → B} (hcar : IsCAR op) {ρ : Reference Ω R} (hρ : ρ.Antisymmetric) {N : List (SQType × Ω) → B} (hN : IsGNO op ρ N) :
    (∀ pre x y post, N (pre ++ x :: y :: post) = - N (pre ++ y :: x :: post)) ∧
    ∀ φ : B →ₗ[R] R, IsReferenceState op ρ φ → φ (N []) = 1 ∧ ∀ l, l ≠ [] → φ (N l) = 0 := by
  refine ⟨gno_antisymm hcar ⟨fun pre a b post u _ => hρ.1 pre a b post u, fun l pre a b post _ => hρ.2 l pre a b post⟩ hN, fun φ hφ => ⟨?_, fun l hl => ?_⟩⟩
  · rw [gno_expectation hN hφ]; rfl
  · rw [gno_expectation hN hφ, if_neg (by simpa using hl)]

theorem two_of_swap {pre post : List Ω} {a b q : Ω} : pre ++ a :: b :: post ≠ [q] := by
  intro h
  have := congrArg List.length h
  simp at this
  omega

theorem refT_anti {ρ : Reference Ω R} (hρ : ρ.Antisymmetric) {T₀ : Str → List Ω → List Ω → R} {dom : Int → Finset Ω} {op : SQType → Ω → B}
    (h₀ : (⟨dom, T₀, op⟩ : OrbSystem Ω R B).Antisymmetric) : (⟨dom, refT ρ T₀, op⟩ : OrbSystem Ω R B).Antisymmetric := by
  intro lab
  have e1 : ∀ (F : Ω → Ω → R) (pre post u : List Ω) (a b : Ω), oneBody F (pre ++ a :: b :: post) u = 0 := by
    intro F pre post u a b
    unfold oneBody
    split
    · rename_i h; exact absurd h two_of_swap
    · rfl
  have e2 : ∀ (F : Ω → Ω → R) (pre post l : List Ω) (a b : Ω), oneBody F l (pre ++ a :: b :: post) = 0 := by
    intro F pre post l a b
    unfold oneBody
    split
    · rename_i h; exact absurd h two_of_swap
    · rfl
  refine ⟨fun pre a b post u => ?_, fun l pre a b post => ?_⟩
  · show refT ρ T₀ lab _ u = - refT ρ T₀ lab _ u
    unfold refT
    rw [e1, e1, e1, e1]
    split
    · simp
    · split
      · simp
      · simp only [List.length_append, List.length_cons]
        split
        · simp only [List.reverse_append, List.reverse_cons, List.append_assoc, List.singleton_append, List.cons_append, List.nil_append]
          exact hρ.2 _ _ _ _ _
        · exact (h₀ lab).1 _ _ _ _ _
  · show refT ρ T₀ lab l _ = - refT ρ T₀ lab l _
    unfold refT
    rw [e2, e2, e2, e2]
    split
    · simp
    · split
      · simp
      · simp only [List.length_append, List.length_cons]
        split
        · exact hρ.1 _ _ _ _ _
        · exact (h₀ lab).2 _ _ _ _ _

theorem lambda_label (k : Nat) : "lambda".toList ++ intStr k ≠ "gamma1".toList ∧ "lambda".toList ++ intStr k ≠ "eta1".toList :=
  ⟨fun h => absurd (congrArg List.head? h) (by simp), fun h => absurd (congrArg List.head? h) (by simp)⟩

theorem refT_lambda (ρ : Reference Ω R) (T₀ : Str → List Ω → List Ω → R) {ps qs : List Ω} (h : ps.length = qs.length) (h2 : 2 ≤ ps.length) :
    refT ρ T₀ ("lambda".toList ++ intStr ps.length) qs.reverse ps = ρ.cumulant ps qs := by
  unfold refT
  rw [if_neg (lambda_label _).1, if_neg (lambda_label _).2, if_pos ⟨rfl, by rw [List.length_reverse, h], h2⟩, List.reverse_reverse]

/-- **C72**: for every reference of the assumed form (given by its density matrix and its cumulants) there are tensors that
describe it, and the other tensors may have any antisymmetric values. -/
theorem C72_tensors_exist {o : OSI} {m : Int} {ρ : Reference Ω R} (hρ : ρ.Antisymmetric) {T₀ : Str → List Ω → List Ω → R} {dom : Int → Finset Ω} {op : SQType → Ω → B}
    (h₀ : (⟨dom, T₀, op⟩ : OrbSystem Ω R B).Antisymmetric)
    (disjoint : ∀ s s' : Nat, s < o.spaces.length → s' < o.spaces.length → s ≠ s' → ∀ x ∈ dom s, x ∉ dom s')
    (occupied : ∀ s : Nat, s < o.spaces.length → o.spaceType s = .ok .occupied → ∀ p ∈ dom s, ∀ q ∈ dom s, ρ.gamma p q = if p = q then 1 else 0)
    (unoccupied : ∀ s : Nat, s < o.spaces.length → o.spaceType s = .ok .unoccupied → ∀ p ∈ dom s, ∀ q ∈ dom s, ρ.gamma p q = 0)
    (uncorrelated_gamma : ∀ s s' : Nat, s < o.spaces.length → s' < o.spaces.length → s ≠ s' → ∀ p ∈ dom s, ∀ q ∈ dom s', ρ.gamma p q = 0)
    (uncorrelated : ∀ ps qs, ps.length = qs.length → 2 ≤ ps.length →
      (¬ ∃ s : Nat, s < o.spaces.length ∧ o.spaceType s = .ok .general ∧ (∀ p ∈ ps, p ∈ dom s) ∧ (∀ q ∈ qs, q ∈ dom s)) → ρ.cumulant ps qs = 0)
    (bounded : ∀ ps qs, m < (ps.length : Int) → ρ.cumulant ps qs = 0) :
    ∃ v : OrbSystem Ω R B, v.dom = dom ∧ v.op = op ∧ v.Antisymmetric ∧ v.HasReference o m ρ ∧
      ∀ lab, lab ≠ "gamma1".toList → lab ≠ "eta1".toList → (∀ k : Nat, lab ≠ "lambda".toList ++ intStr k) → v.T lab = T₀ lab := by
  refine ⟨⟨dom, refT ρ T₀, op⟩, rfl, rfl, refT_anti hρ h₀, ⟨disjoint, occupied, unoccupied, ?_, ?_, ?_, uncorrelated_gamma, uncorrelated, bounded⟩, ?_⟩
  · intros; rfl
  · intros; rfl
  · intro s _ _ ps qs h h2 _ _
    exact refT_lambda ρ T₀ h h2
  · intro lab h1 h2 h3
    funext l u
    show refT ρ T₀ lab l u = _
    unfold refT
    rw [if_neg h1, if_neg h2, if_neg (fun h => h3 _ h.1)]

theorem anti_repeat [Algebra ℚ R] {F : List Ω → R} (hF : AntisymmFun F) : ∀ (l : List Ω), ¬ l.Nodup → ∀ pre, F (pre ++ l) = 0 := by
  intro l
  induction l with
  | nil => intro h; exact absurd List.nodup_nil h
  | cons x l ih =>
    intro h pre
    by_cases hx : x ∈ l
    · obtain ⟨s, t, rfl⟩ := List.append_of_mem hx
      rw [anti_move hF x s pre (x :: t), ← List.append_assoc]
      have h2 := hF (pre ++ s) x x t
      have h3 : (2 : ℚ) • F ((pre ++ s) ++ x :: x :: t) = 0 := by
        rw [two_smul]
        nth_rewrite 1 [h2]
        rw [neg_add_cancel]
      have h4 : F ((pre ++ s) ++ x :: x :: t) = 0 := by
        rw [← one_smul ℚ (F _), show (1 : ℚ) = (1 / 2) * 2 by norm_num, mul_smul, h3, smul_zero]
      rw [h4, smul_zero]
    · have := ih (fun hl => h (List.nodup_cons.2 ⟨hx, hl⟩)) (pre ++ [x])
      simpa using this

/-- there are no cumulants of more particles than orbitals -/
theorem cumulant_bounded [Algebra ℚ R] [Fintype Ω] {ρ : Reference Ω R} (hρ : ρ.Antisymmetric) {ps : List Ω} (qs : List Ω) (h : Fintype.card Ω < ps.length) : ρ.cumulant ps qs = 0 := by
  have hF : AntisymmFun (fun l => ρ.cumulant l qs) := fun pre a b post => hρ.1 pre a b post qs
  have := anti_repeat hF ps (fun hn => by have := hn.length_le_card; omega) []
  exact this

end

/-! ## A correlated state that meets the hypotheses: two general orbitals, half empty and half filled -/

/-- one general space -/
def exG : OSI := ⟨[⟨'a', .fermion, .general, [], []⟩], [('a', 0)], []⟩

/-- the mixture, in equal parts, of the state without particles and the state with both orbitals occupied -/
def jwMix : Matrix (Fin 4) (Fin 4) ℚ →ₗ[ℚ] ℚ where
  toFun M := (1 / 2) * (M 0 0 + M 3 3)
  map_add' _ _ := by simp only [Matrix.add_apply]; ring
  map_smul' _ _ := by simp only [Matrix.smul_apply, smul_eq_mul, RingHom.id_apply]; ring

/-- number of particles of the basis states -/
def jwNum : Fin 4 → Int
  | 0 => 0
  | 1 => 1
  | 2 => 1
  | 3 => 2

theorem jw_charge (s : SQType) (x : Bool) : ∀ i k, jwOp s x i k ≠ 0 → jwNum i = jwNum k + opCharge (s, x) := by
  have h : ∀ i k, jwOp s x i k = 0 ∨ jwNum i = jwNum k + opCharge (s, x) := by
    intro i
    cases s <;> cases x <;> fin_cases i <;> decide +kernel
  intro i k hne
  exact (h i k).resolve_left hne

theorem jw_number (l : List (SQType × Bool)) : ∀ i j, (l.map (fun m => jwOp m.1 m.2)).prod i j ≠ 0 → jwNum i = jwNum j + ((creOrbs l).length - (annOrbs l).length) := by
  induction l with
  | nil =>
    intro i j h
    by_cases hij : i = j
    · subst hij; simp [creOrbs, annOrbs]
    · exact absurd (Matrix.one_apply_ne hij) (by simpa using h)
  | cons m l ih =>
    intro i j h
    rw [List.map_cons, List.prod_cons, Matrix.mul_apply] at h
    obtain ⟨k, _, hk⟩ := Finset.exists_ne_zero_of_sum_ne_zero h
    have h1 := ih k j (right_ne_zero_of_mul hk)
    have h2 := left_ne_zero_of_mul hk
    obtain ⟨s, x⟩ := m
    have h3 : jwNum i = jwNum k + opCharge (s, x) := jw_charge s x i k h2
    cases s
    · rw [creOrbs_cre, annOrbs_cre, h3, h1]; simp only [List.length_cons, opCharge]; push_cast; ring
    · rw [creOrbs_ann, annOrbs_ann, h3, h1]; simp only [List.length_cons, opCharge]; push_cast; ring

theorem jwMix_number (l : List (SQType × Bool)) (h : (creOrbs l).length ≠ (annOrbs l).length) : jwMix (l.map (fun m => jwOp m.1 m.2)).prod = 0 := by
  have h0 : ∀ i, (l.map (fun m => jwOp m.1 m.2)).prod i i = 0 := by
    intro i
    by_contra hne
    have := jw_number l i i hne
    omega
  show (1 / 2 : ℚ) * ((l.map (fun m => jwOp m.1 m.2)).prod 0 0 + (l.map (fun m => jwOp m.1 m.2)).prod 3 3) = 0
  rw [h0, h0]; norm_num

theorem exG_reference : ∃ (v : OrbSystem Bool ℚ (Matrix (Fin 4) (Fin 4) ℚ)) (ρ : Reference Bool ℚ) (N : List (SQType × Bool) → Matrix (Fin 4) (Fin 4) ℚ),
    v.Antisymmetric ∧ IsCAR v.op ∧ v.HasReference exG 100 ρ ∧ IsGNO v.op ρ N ∧ IsReferenceState v.op ρ jwMix ∧
    v.T "f".toList = jwSys.T "f".toList ∧ v.T "g".toList = jwSys.T "g".toList := by
  obtain ⟨ρ, h1, h2, h3⟩ := C72_reference_exists jw_car jwMix (by simp [jwMix]; norm_num) jwMix_number
  obtain ⟨N, hN, _⟩ := C72_gno_exists_unique jwOp ρ
  have ht : ∀ s : Nat, s < exG.spaces.length → exG.spaceType s = .ok .general := by
    intro s hs
    have : s = 0 := by simp only [exG, List.length_cons, List.length_nil] at hs; omega
    subst this; rfl
  obtain ⟨v, hd, ho, hv, href, hT⟩ := C72_tensors_exist (o := exG) (m := 100) (ρ := ρ) (T₀ := jwSys.T) (dom := fun _ => Finset.univ) (op := jwOp) h1 jw_anti
    (by intro s s' hs hs' hne; simp only [exG, List.length_cons, List.length_nil] at hs hs'; omega)
    (by intro s hs h; rw [ht s hs] at h; cases h) (by intro s hs h; rw [ht s hs] at h; cases h)
    (by intro s s' hs hs' hne; simp only [exG, List.length_cons, List.length_nil] at hs hs'; omega)
    (by intro ps qs _ _ h; exact absurd ⟨0, by decide, rfl, fun _ _ => Finset.mem_univ _, fun _ _ => Finset.mem_univ _⟩ h)
    (by intro ps qs h; exact cumulant_bounded h1 qs (by simp only [Fintype.card_bool]; omega))
  have hl : ∀ (c : Char) (k : Nat), c ≠ 'l' → [c] ≠ "lambda".toList ++ intStr k := by
    intro c k hc h
    have := congrArg List.head? h
    simp at this
    exact hc this
  refine ⟨v, ρ, N, hv, ho ▸ jw_car, href, ho ▸ hN, ho ▸ h2, hT _ (by decide) (by decide) (fun k => hl _ _ (by decide)), hT _ (by decide) (by decide) (fun k => hl _ _ (by decide))⟩

def gOps : OperatorProduct := [mkOp "f" [(1, 1)], mkOp "g" [(1, 1)]]

theorem gOps_valid : ∀ p ∈ gOps, p.Valid exG.spaces.length := by
  intro p hp
  rcases List.mem_cons.1 hp with rfl | hp
  · exact mkOp_valid _ _ _ (by decide) (by simp)
  · rcases List.mem_cons.1 hp with rfl | hp
    · exact mkOp_valid _ _ _ (by decide) (by simp)
    · cases hp

theorem gOps_two : ∀ p ∈ gOps, ∀ s, p.gm.cre s ≤ 2 := by
  intro p hp s
  by_cases hs : s < 8
  · simp only [gOps, List.mem_cons, List.not_mem_nil, or_false] at hp
    rcases hp with rfl | rfl <;> interval_cases s <;> decide
  · have : p.gm.cre s = 0 := by
      simp only [gOps, List.mem_cons, List.not_mem_nil, or_false] at hp
      rcases hp with rfl | rfl <;> simp [mkOp, GraphMatrix.cre, gm_get_tab, hs]
    omega

-- the product of two operators: five terms; the expectation value has two, one with `gamma1` and `eta1`, one with `lambda2`
example : ∃ (v : OrbSystem Bool ℚ (Matrix (Fin 4) (Fin 4) ℚ)) (ρ : Reference Bool ℚ) (N : List (SQType × Bool) → Matrix (Fin 4) (Fin 4) ℚ) (e e₀ : Expr),
    v.HasReference exG 100 ρ ∧ IsGNO v.op ρ N ∧ IsReferenceState v.op ρ jwMix ∧
    contract exG {} ⟨1, 2⟩ gOps 0 4 = .ok e ∧ e.length = 5 ∧ contract exG {} ⟨1, 2⟩ gOps 0 0 = .ok e₀ ∧ e₀.length = 2 ∧
    Lin.eval (v.normalValueOf N) e = ((1 : ℚ) / 2) • (gOps.map (v.opValueOf N 1)).prod ∧
    Lin.eval v.scalarValue e₀ = jwMix (((1 : ℚ) / 2) • (gOps.map (v.opValueOf N 1)).prod) := by
  obtain ⟨v, ρ, N, hv, hcar, href, hN, hφ, _, _⟩ := exG_reference
  have h4 : (contract exG {} ⟨1, 2⟩ gOps 0 4).toOption.map List.length = some 5 := by decide +kernel
  have h0 : (contract exG {} ⟨1, 2⟩ gOps 0 0).toOption.map List.length = some 2 := by decide +kernel
  have hr : toRat ⟨1, 2⟩ = (1 : ℚ) / 2 := by norm_num [toRat]
  cases hc : contract exG {} ⟨1, 2⟩ gOps 0 4 with
  | error e => rw [hc] at h4; cases h4
  | ok e =>
    cases hc0 : contract exG {} ⟨1, 2⟩ gOps 0 0 with
    | error e => rw [hc0] at h0; cases h0
    | ok e₀ =>
      rw [hc] at h4
      rw [hc0] at h0
      refine ⟨v, ρ, N, e, e₀, href, hN, hφ, rfl, by simpa [Except.toOption] using h4, rfl, by simpa [Except.toOption] using h0, ?_, ?_⟩
      · rw [← hr]
        exact C72_generalized_product_partial (by decide) gOps_valid (noTriples_of_two gOps_two) (by decide) (by constructor <;> decide) hc (by decide) (by decide +kernel) hv hcar href hN
      · rw [← hr]
        exact (C72_expectation_partial (by decide) gOps_valid (noTriples_of_two gOps_two) (by decide) (by constructor <;> decide) hc0 hv hcar href hN hφ).2

end Wick
end Wicked
