import Verif.Spec.StarValuation
import Verif.Spec.Reindex
import Verif.Props.NormalOrder
import Mathlib.Algebra.Star.Module
import Mathlib.Algebra.Star.BigOperators
import Mathlib.Algebra.Star.Rat
/-! # C30-C32, C35, C60: products, adjoints and re-indexing of expressions -/
namespace Wicked
open CppLt CppEq Rational Lin

/-! ## C30 -/
section
variable {R A : Type _} [CommRing R] [Ring A] [Algebra R A] [Algebra ℚ A]

omit [Algebra ℚ A] in
theorem term_cat (v : Valuation R A) (a b : STerm) : v.term (a.cat b) = v.term a * v.term b := by
  simp only [Valuation.term, STerm.cat, Valuation.tensors, Valuation.ops, List.map_append, List.prod_append,
    smul_mul_smul_comm]

theorem sum_mul_sum {κ : Type _} (φ : κ → A) (a b : Lin κ) :
    Lin.eval φ a * Lin.eval φ b = (a.map (fun p => (b.map (fun q => (toRat p.2 * toRat q.2) • (φ p.1 * φ q.1))).sum)).sum := by
  unfold Lin.eval
  rw [← List.sum_map_mul_right]
  congr 1; apply List.map_congr_left; intro p _
  rw [← List.sum_map_mul_left]
  congr 1; apply List.map_congr_left; intro q _
  rw [smul_mul_smul_comm]

/-- **C30**: whenever `a @ b` does not raise, its value is the product of the values, for every
valuation of the tensors in a commutative ring and of the operators in an algebra. -/
theorem C30_value_of_product (v : Valuation R A) {a b c : Expr} (ha : Ok a) (hb : Ok b)
    (h : Expr.mul a b = .ok c) : Lin.eval v.term c = Lin.eval v.term a * Lin.eval v.term b := by
  rcases expr_mul_cases a b with ⟨_, h'⟩ | ⟨_, h'⟩
  · rw [h'] at h; cases h
  · rw [h'] at h; cases h
    rw [eval_mul v.term (term_congr v) STerm.cat ha hb, sum_mul_sum]
    simp only [term_cat]
end

theorem cat_congr_left {a b c : STerm} (h : eqv a b = true) : eqv (a.cat c) (b.cat c) = true := by
  rw [sterm_eqv] at h ⊢
  simp only [STerm.key, STerm.cat, Prod.mk.injEq, List.map_append] at h ⊢
  rw [h.1, h.2]; exact ⟨rfl, rfl⟩

theorem cat_congr_right {a b c : STerm} (h : eqv a b = true) : eqv (c.cat a) (c.cat b) = true := by
  rw [sterm_eqv] at h ⊢
  simp only [STerm.key, STerm.cat, Prod.mk.injEq, List.map_append] at h ⊢
  rw [h.1, h.2]; exact ⟨rfl, rfl⟩

theorem cat_assoc (a b c : STerm) : (a.cat b).cat c = a.cat (b.cat c) := by
  simp [STerm.cat, List.append_assoc]

theorem mul_unlabelled {a b : Expr} (ha : a.Unlabelled) (hb : b.Unlabelled) :
    Expr.mul a b = .ok (Lin.mul STerm.cat a b) := by
  rcases expr_mul_cases a b with ⟨⟨p, hp, q, hq, h⟩, _⟩ | ⟨_, h'⟩
  · rcases h with h | h
    · rw [ha p hp] at h; cases h
    · rw [hb q hq] at h; cases h
  · exact h'

theorem unlabelled_mul (a b : Expr) : Expr.Unlabelled (Lin.mul STerm.cat a b) := by
  rw [mul_eq_fold]
  exact mem_fold_add (fun t : STerm => t.normalOrdered = false) _ _ _ [] (by simp) (by intro b _; rfl)

theorem unlabelled_plus {a b : Expr} (ha : a.Unlabelled) (hb : b.Unlabelled) : Expr.Unlabelled (Lin.plus a b) :=
  mem_fold_add (fun t : STerm => t.normalOrdered = false) Prod.fst Prod.snd b a ha hb

/-- value of a product as the value of the left factor under a modified functional -/
theorem eval_mul_left (φ : STerm → ℚ) (hφ : ∀ a b : STerm, eqv a b = true → φ a = φ b) {a b : Expr} (ha : Ok a) (hb : Ok b) :
    eval φ (Lin.mul STerm.cat a b) = eval (fun s => eval (fun r => φ (s.cat r)) b) a := by
  rw [eval_mul φ hφ _ ha hb]
  unfold eval
  congr 1; apply List.map_congr_left; intro p _
  rw [List.smul_sum, List.map_map]
  congr 1; apply List.map_congr_left; intro q _
  simp only [Function.comp, mul_smul]

theorem eval_mul_right (φ : STerm → ℚ) (hφ : ∀ a b : STerm, eqv a b = true → φ a = φ b) {a b : Expr} (ha : Ok a) (hb : Ok b) :
    eval φ (Lin.mul STerm.cat a b) = eval (fun r => eval (fun s => φ (s.cat r)) a) b := by
  rw [eval_mul_left φ hφ ha hb]
  unfold eval
  simp only [smul_eq_mul, ← List.sum_map_mul_left]
  rw [sum_comm_list]
  congr 1; apply List.map_congr_left; intro p _
  congr 1; apply List.map_congr_left; intro q _
  ring

/-- **C30**: `@` is associative: both ways of bracketing give expressions that are `==`. -/
theorem C30_assoc {a b c : Expr} (ha : Ok a) (hb : Ok b) (hc : Ok c)
    (ua : a.Unlabelled) (ub : b.Unlabelled) (uc : c.Unlabelled) :
    ∃ ab bc x y, Expr.mul a b = .ok ab ∧ Expr.mul b c = .ok bc ∧ Expr.mul ab c = .ok x ∧ Expr.mul a bc = .ok y ∧
      Lin.isEqual x y = true := by
  have hab := (mul_spec STerm.cat ha hb).1
  have hbc := (mul_spec STerm.cat hb hc).1
  refine ⟨_, _, _, _, mul_unlabelled ua ub, mul_unlabelled ub uc, mul_unlabelled (unlabelled_mul a b) uc,
    mul_unlabelled ua (unlabelled_mul b c), ?_⟩
  apply isEqual_of_eval (mul_spec STerm.cat hab.toOk hc).1 (mul_spec STerm.cat ha hbc.toOk).1
  intro φ hφ
  have h1 : ∀ s : STerm, ∀ a b : STerm, eqv a b = true → φ (s.cat a) = φ (s.cat b) := fun s a b h => hφ _ _ (cat_congr_right h)
  rw [eval_mul_left φ hφ hab.toOk hc, eval_mul_left φ hφ ha hbc.toOk, eval_mul_left _ _ ha hb]
  · unfold eval
    congr 1; apply List.map_congr_left; intro p _
    congr 1
    have := eval_mul_left (fun r => φ (p.1.cat r)) (h1 _) hb hc
    unfold eval at this
    simp only [cat_assoc]
    exact this.symm
  · intro s t h
    unfold eval
    congr 1; apply List.map_congr_left; intro p _
    show _ • φ _ = _ • φ _
    rw [hφ _ _ (cat_congr_left h)]

/-- **C30**: `@` distributes over `+` on both sides. -/
theorem C30_distrib {a b c : Expr} (ha : Ok a) (hb : Ok b) (hc : Ok c)
    (ua : a.Unlabelled) (ub : b.Unlabelled) (uc : c.Unlabelled) :
    (∃ x y z, Expr.mul a (Lin.plus b c) = .ok x ∧ Expr.mul a b = .ok y ∧ Expr.mul a c = .ok z ∧
      Lin.isEqual x (Lin.plus y z) = true) ∧
    (∃ x y z, Expr.mul (Lin.plus a b) c = .ok x ∧ Expr.mul a c = .ok y ∧ Expr.mul b c = .ok z ∧
      Lin.isEqual x (Lin.plus y z) = true) := by
  have hbc := (plus_spec hb hc).1
  have hab := (plus_spec ha hb).1
  constructor
  · have h1 := (mul_spec STerm.cat ha hb).1
    have h2 := (mul_spec STerm.cat ha hc).1
    refine ⟨_, _, _, mul_unlabelled ua (unlabelled_plus ub uc), mul_unlabelled ua ub, mul_unlabelled ua uc, ?_⟩
    apply isEqual_of_eval (mul_spec STerm.cat ha hbc).1 ((plus_spec h1.toOk h2.toOk).2.1 h1)
    intro φ hφ
    have hc' : ∀ s t : STerm, eqv s t = true → eval (fun r => φ (r.cat s)) a = eval (fun r => φ (r.cat t)) a := by
      intro s t h
      unfold eval; congr 1; apply List.map_congr_left; intro p _
      show _ • φ _ = _ • φ _
      rw [hφ _ _ (cat_congr_right h)]
    rw [eval_mul_right φ hφ ha hbc, eval_plus φ hφ h1.toOk h2.toOk, eval_mul_right φ hφ ha hb, eval_mul_right φ hφ ha hc,
      eval_plus _ hc' hb hc]
  · have h1 := (mul_spec STerm.cat ha hc).1
    have h2 := (mul_spec STerm.cat hb hc).1
    refine ⟨_, _, _, mul_unlabelled (unlabelled_plus ua ub) uc, mul_unlabelled ua uc, mul_unlabelled ub uc, ?_⟩
    apply isEqual_of_eval (mul_spec STerm.cat hab hc).1 ((plus_spec h1.toOk h2.toOk).2.1 h1)
    intro φ hφ
    have hc' : ∀ s t : STerm, eqv s t = true → eval (fun r => φ (s.cat r)) c = eval (fun r => φ (t.cat r)) c := by
      intro s t h
      unfold eval; congr 1; apply List.map_congr_left; intro p _
      show _ • φ _ = _ • φ _
      rw [hφ _ _ (cat_congr_left h)]
    rw [eval_mul_left φ hφ hab hc, eval_plus φ hφ h1.toOk h2.toOk, eval_mul_left φ hφ ha hc, eval_mul_left φ hφ hb hc,
      eval_plus _ hc' ha hb]

/-- non-vacuity: a product of two expressions, with a coefficient -/
example : Ok vnoExample ∧ vnoExample.Unlabelled ∧ ∃ c, Expr.mul vnoExample vnoExample = .ok c ∧ c.length = 1 := by
  refine ⟨⟨by simp [vnoExample], by simp only [vnoExample, List.mem_singleton, forall_eq]; decide⟩, by simp [Expr.Unlabelled, vnoExample], _, mul_unlabelled ?_ ?_, rfl⟩ <;>
  simp [Expr.Unlabelled, vnoExample]

/-! ## C31 -/

namespace StarValuation
variable {R A : Type _} [CommRing R] [StarRing R] [Ring A] [StarRing A] [Algebra R A]

omit [Algebra R A] in
theorem op_adjoint (v : StarValuation R A) (a : SQOp) : v.op a.adjoint = star (v.op a) := by
  rcases a with ⟨t, i⟩
  cases t
  · simp [op, SQOp.adjoint, SQOp.isCre, v.star_cre]
  · simp [op, SQOp.adjoint, SQOp.isCre, ← v.star_cre]

omit [Algebra R A] in
theorem tensor_adjoint (v : StarValuation R A) (t : Tensor) : v.tensor t.adjoint = star (v.tensor t) := by
  rcases t with ⟨l, lo, up, s, c⟩
  cases c <;> simp [tensor, Tensor.adjoint]

omit [Algebra R A] in
theorem star_prod_ops (v : StarValuation R A) (l : List SQOp) :
    star ((l.map v.op).prod) = ((((l.map SQOp.adjoint).reverse).map v.op).prod) := by
  induction l with
  | nil => simp
  | cons a l ih =>
    rw [List.map_cons, List.prod_cons, star_mul, ih]
    simp [op_adjoint]

omit [Algebra R A] in
theorem star_prod_tensors (v : StarValuation R A) (l : List Tensor) :
    star ((l.map v.tensor).prod) = ((l.map Tensor.adjoint).map v.tensor).prod := by
  induction l with
  | nil => simp
  | cons a l ih =>
    rw [List.map_cons, List.prod_cons, star_mul, ih]
    simp [tensor_adjoint, mul_comm]

theorem term_adjoint [StarModule R A] (v : StarValuation R A) (t : STerm) : v.term t.adjoint = star (v.term t) := by
  unfold term
  rw [star_smul, star_prod_tensors]
  show _ • (if t.normalOrdered then _ else _) = _
  cases t.normalOrdered
  · simp only [Bool.false_eq_true, if_false]
    rw [star_prod_ops]; rfl
  · simp only [if_true]
    rw [v.star_braces]; rfl

end StarValuation

theorem sqop_adjoint_adjoint (a : SQOp) : a.adjoint.adjoint = a := by
  rcases a with ⟨t, i⟩; cases t <;> rfl

theorem sqop_adjoint_inj : Function.Injective SQOp.adjoint :=
  Function.LeftInverse.injective sqop_adjoint_adjoint

theorem sterm_adjoint_adjoint (t : STerm) : t.adjoint.adjoint = t := by
  rcases t with ⟨n, o, ts⟩
  simp only [STerm.adjoint, STerm.mk.injEq, List.map_reverse, List.reverse_reverse, List.map_map, true_and]
  constructor
  · have : SQOp.adjoint ∘ SQOp.adjoint = id := funext sqop_adjoint_adjoint
    rw [this]; simp
  · have : Tensor.adjoint ∘ Tensor.adjoint = id := by funext a; cases a; simp [Tensor.adjoint]
    rw [this]; simp

theorem sterm_adjoint_key (t : STerm) : t.adjoint.key = (t.tensors.map Tensor.key, (t.ops.map SQOp.adjoint).reverse) := by
  simp only [STerm.key, STerm.adjoint, List.map_map]
  congr 1

theorem adjoint_eqv {a b : STerm} : eqv a.adjoint b.adjoint = eqv a b := by
  rw [Bool.eq_iff_iff, sterm_eqv, sterm_eqv, sterm_adjoint_key, sterm_adjoint_key]
  simp only [STerm.key, Prod.mk.injEq, List.reverse_inj, List.map_inj_right (fun _ _ h => sqop_adjoint_inj h)]

theorem eval_adjoint {M : Type _} [AddCommGroup M] [Module ℚ M] (φ : STerm → M) {e : Expr} (he : Ok e) :
    eval φ e.adjoint = eval (fun t => φ t.adjoint) e := by
  have := eval_fold_add_new φ (fun p : STerm × Rational => p.1.adjoint) Prod.snd e [] ok_nil he.canon
    (he.sorted.imp (fun {p q} h => by
      rw [adjoint_eqv, Bool.eq_false_iff]
      intro hh
      unfold eqv at hh
      rw [h] at hh; simp at hh))
    (by simp)
  refine this.trans ?_
  rw [eval_nil, zero_add]; rfl

/-- **C31**: for every *-algebra valuation (in which a conjugated tensor has the starred value and
the adjoint exchanges creation and annihilation operators), the value of `e.adjoint()` is the adjoint
of the value of `e`. -/
theorem C31_value_of_adjoint {R A : Type _} [CommRing R] [StarRing R] [Ring A] [StarRing A] [Algebra R A]
    [StarModule R A] [Module ℚ A] (v : StarValuation R A) {e : Expr} (he : Ok e) :
    Lin.eval v.term e.adjoint = star (Lin.eval v.term e) := by
  rw [eval_adjoint v.term he]
  simp only [v.term_adjoint]
  clear he
  induction e with
  | nil => simp [eval]
  | cons p e ih => rw [eval_cons, eval_cons, ih, star_add, star_rat_smul]

/-- **C31**: `adjoint` is an involution: `e.adjoint().adjoint()` is `==` to `e`, and it is the same
formal combination of terms even if conjugation flags, symmetries and normal-ordered labels are told
apart. -/
theorem C31_involution {e : Expr} (he : WF e) :
    Lin.isEqual e.adjoint.adjoint e = true ∧
    ∀ φ : STerm → ℚ, Lin.eval φ e.adjoint.adjoint = Lin.eval φ e := by
  have h1 : WF e.adjoint := (mapKeys_spec STerm.adjoint he.toOk).1
  have key : ∀ φ : STerm → ℚ, Lin.eval φ e.adjoint.adjoint = Lin.eval φ e := by
    intro φ
    rw [eval_adjoint φ h1.toOk, eval_adjoint _ he.toOk]
    simp only [sterm_adjoint_adjoint]
  exact ⟨isEqual_of_eval (mapKeys_spec STerm.adjoint h1.toOk).1 he (fun φ _ => key φ), key⟩

/-- non-vacuity: the single-orbital Fock space with real tensors is a *-valuation -/
def starOrbital : StarValuation ℚ (Matrix (Fin 2) (Fin 2) ℚ) where
  T := fun _ l u => l.length + 2 * u.length
  cre := fun _ => !![0, 0; 1, 0]
  ann := fun _ => !![0, 1; 0, 0]
  braces := fun _ => 0
  star_cre := by
    intro i; ext a b; fin_cases a <;> fin_cases b <;> simp
  star_braces := by simp

example : WF vnoExample ∧ vnoExample.adjoint = [(⟨false, [⟨.annihilation, ⟨0, 1⟩⟩, ⟨.creation, ⟨0, 0⟩⟩],
    [⟨"t".toList, [⟨0, 1⟩], [⟨0, 0⟩], .antisymmetric, true⟩]⟩, Rational.mk2 1 2)] := by
  refine ⟨⟨⟨by simp [vnoExample], by simp only [vnoExample, List.mem_singleton, forall_eq]; decide⟩, ?_⟩, by decide⟩
  simp only [vnoExample, List.mem_singleton, forall_eq]
  rw [Rational.toRat_mk2]
  norm_num

/-! ## C32 -/

theorem add_eqv_merges {κ : Type _} [CppLt κ] [StrictWeak κ] (k k' : κ) (c d : Rational) (h : eqv k k' = true)
    (hc : Rational.eq c (Rational.ofInt 0) = false) (hd : Rational.eq d (Rational.ofInt 0) = false) :
    (Lin.add (Lin.add [] k c) k' d) =
      if Rational.eq (Rational.add c d) (Rational.ofInt 0) then [] else [(k, Rational.add c d)] := by
  rw [eqv_iff] at h
  have h1 : Lin.add [] k c = [(k, c)] := by simp [Lin.add, hc, SMap.find, SMap.insert]
  have h2 : SMap.find k' [(k, c)] = some c := by simp [SMap.find, h.1, h.2]
  rw [h1, Lin.add, hd, h2]
  simp [SMap.erase, SMap.insert, h.1, h.2]

/-- **C32 is false of the code**: for *every* operator string and tensors, a term labelled normal
ordered and the same term without the label are merged into one term (the first one), with the sum of
the coefficients; if the coefficients are opposite, the result is the empty expression. -/
theorem C32_labels_merged (ops : List SQOp) (tensors : List Tensor) (c d : Rational)
    (hc : Rational.eq c (Rational.ofInt 0) = false) (hd : Rational.eq d (Rational.ofInt 0) = false) :
    (Lin.add (Lin.add [] ⟨true, ops, tensors⟩ c) ⟨false, ops, tensors⟩ d : Expr) =
      if Rational.eq (Rational.add c d) (Rational.ofInt 0) then [] else [(⟨true, ops, tensors⟩, Rational.add c d)] :=
  add_eqv_merges _ _ c d (by rw [sterm_eqv]; rfl) hc hd

/-- the two merged terms denote different operators: in the single-orbital Fock space the product
`a a+` is not zero, its normal-ordered version is `-a+ a`. -/
theorem C32_merged_terms_differ :
    ∃ (v : Valuation ℚ (Matrix (Fin 2) (Fin 2) ℚ)) (i : Index), v.CCR oneFermion (fun _ : Index => ()) ∧
      v.ops [⟨.annihilation, i⟩, ⟨.creation, i⟩] ≠ - v.ops [⟨.creation, i⟩, ⟨.annihilation, i⟩] := by
  refine ⟨singleOrbital, ⟨0, 0⟩, singleOrbital_ccr, ?_⟩
  intro h
  have := congrFun (congrFun h 0) 0
  simp [Valuation.ops, Valuation.op, singleOrbital, Matrix.mul_apply, Fin.sum_univ_two] at this

/-- **C32 (partial)**: terms that differ in their operator strings, or in the labels or indices of
their tensors, are kept apart whatever their label.  Missing: terms differing only in the
normal-ordered label (`C32_labels_merged`). -/
theorem C32_distinct_partial {e : Expr} (he : Ok e) (t t' : STerm) {c : Rational} (hc : Canon c)
    (h : t.ops ≠ t'.ops ∨ t.tensors.map Tensor.key ≠ t'.tensors.map Tensor.key) :
    Lin.coef (e.add t c) t' = Lin.coef e t' ∧ Lin.coef (e.add t c) t = Lin.coef e t + toRat c := by
  rw [coef_add he t t' hc, coef_add he t t hc, if_neg, if_pos (eqv_refl t)]
  · simp
  · rw [sterm_eqv]
    intro hh
    simp only [STerm.key, Prod.mk.injEq] at hh
    rcases h with h | h
    · exact h hh.2
    · exact h hh.1

/-! ## C60 -/

/-- **C60 is false of the code**: every tensor is `==` to its complex conjugate. -/
theorem C60_conjugates_equal (t : Tensor) : CppEq.eq t t.adjoint = true ∧ t.adjoint ≠ t := by
  constructor
  · rw [tensor_eq]; rfl
  · rcases t with ⟨l, lo, up, s, c⟩; cases c <;> simp [Tensor.adjoint]

/-- a scalar term minus its complex conjugate is silently the empty expression: an imaginary part is
lost -/
theorem C60_conjugate_terms_cancel (ts : List Tensor) :
    (Lin.add (Lin.add [] ⟨false, [], ts⟩ (Rational.ofInt 1)) ⟨false, [], ts.map Tensor.adjoint⟩ (Rational.ofInt (-1)) : Expr) = [] := by
  have := add_eqv_merges (κ := STerm) ⟨false, [], ts⟩ ⟨false, [], ts.map Tensor.adjoint⟩ (Rational.ofInt 1) (Rational.ofInt (-1))
    (by rw [sterm_eqv]; simp only [STerm.key, List.map_map, Prod.mk.injEq, and_true]; rfl) (by decide) (by decide)
  rw [this, if_pos (by decide)]

/-- **C60 (partial)**: `==` on tensors with the same conjugation flag and symmetry is exact equality;
tensors are `==` iff label and indices agree.  Missing: the conjugation flag is ignored. -/
theorem C60_tensor_eq_partial (a b : Tensor) :
    (CppEq.eq a b = true ↔ a.label = b.label ∧ a.lower = b.lower ∧ a.upper = b.upper) ∧
    (a.conj = b.conj → a.symm = b.symm → (CppEq.eq a b = true ↔ a = b)) := by
  have h : CppEq.eq a b = true ↔ a.label = b.label ∧ a.lower = b.lower ∧ a.upper = b.upper := by
    rw [tensor_eq]; simp [Tensor.key]
  refine ⟨h, fun h1 h2 => h.trans ?_⟩
  rcases a with ⟨_, _, _, _, _⟩; rcases b with ⟨_, _, _, _, _⟩
  simp only at h1 h2; subst h1; subst h2
  simp

/-! ## C35 -/

theorem applyMap_describes {m : IndexMap} (hm : m.Pairwise (fun p q => lt p.1 q.1 = true)) :
    m.Describes (applyMap m) := by
  constructor
  · intro p hp
    unfold applyMap
    rw [SMap.find_of_mem hm hp]; rfl
  · intro i hi
    unfold applyMap
    cases hf : SMap.find i m with
    | none => rfl
    | some j =>
      obtain ⟨p, hp, he, _⟩ := SMap.find_some_mem hf
      rw [eqv_eq] at he
      exact absurd he (hi p hp)

theorem describes_unique {m : IndexMap} {f g : Index → Index} (hf : m.Describes f) (hg : m.Describes g) : f = g := by
  funext i
  by_cases h : ∀ p ∈ m, p.1 ≠ i
  · rw [hf.2 i h, hg.2 i h]
  · push Not at h
    obtain ⟨p, hp, rfl⟩ := h
    rw [hf.1 p hp, hg.1 p hp]

/-- **C35 (partial: terms)** `SymbolicTerm::reindex(map)` replaces every index of every operator and
tensor by its image at once, and leaves the other indices alone.  Missing: the method of the same name
on expressions does nothing (`C35_expression_reindex_wrong`). -/
theorem C35_term_reindex_partial (m : IndexMap) (hm : m.Pairwise (fun p q => lt p.1 q.1 = true))
    (f : Index → Index) (hf : m.Describes f) (t : STerm) : t.reindex m = t.subst f := by
  rw [← describes_unique (applyMap_describes hm) hf]
  rfl

/-- **C35 is false of the code**: `Expression::reindex` returns the expression unchanged for every
map; for a swap of two indices that is not the substituted expression. -/
theorem C35_expression_reindex_wrong :
    (∀ (m : IndexMap) (e : Expr), e.reindex m = e) ∧
    ∃ (m : IndexMap) (f : Index → Index) (e : Expr), m.Describes f ∧ WF e ∧
      Lin.isEqual (e.reindex m) (e.substituted f) = false := by
  refine ⟨fun _ _ => rfl, [(⟨0, 0⟩, ⟨0, 1⟩)], fun i => if i = ⟨0, 0⟩ then ⟨0, 1⟩ else i,
    [(⟨false, [⟨.creation, ⟨0, 0⟩⟩], []⟩, Rational.ofInt 1)], ⟨by decide, ?_⟩, ⟨⟨by simp, ?_⟩, ?_⟩, by decide⟩
  · intro i hi
    have := hi (⟨0, 0⟩, ⟨0, 1⟩) (by simp)
    simp only at this
    exact if_neg (Ne.symm this)
  · simp only [List.mem_singleton, forall_eq]; decide
  · simp only [List.mem_singleton, forall_eq]; rw [toRat_ofInt]; norm_num

/-- the map built (and dropped) inside `Expression::reindex` is the right one: it is well formed and
its coefficients are those of the substituted expression -/
theorem C35_discarded_result_partial (m : IndexMap) (hm : m.Pairwise (fun p q => lt p.1 q.1 = true))
    (f : Index → Index) (hf : m.Describes f) (e : Expr) (he : Ok e) :
    WF (e.reindexedTerms m) ∧ ∀ t, coef (e.reindexedTerms m) t =
      (e.map (fun p => if CppEq.eq (p.1.subst f) t = true then toRat p.2 else 0)).sum := by
  obtain ⟨h1, h2⟩ := mapKeys_spec (STerm.reindex m) he
  refine ⟨h1, fun t => ?_⟩
  have h3 : STerm.reindex m = STerm.subst f := funext (C35_term_reindex_partial m hm f hf)
  refine (h2 t).trans ?_
  rw [h3]
  congr 1; apply List.map_congr_left; intro p _
  have : (eqv (p.1.subst f) t = true) ↔ (CppEq.eq (p.1.subst f) t = true) := by rw [cppEq_iff]
  simp only [this]

/-- non-vacuity: a swap, applied simultaneously -/
example : (IndexMap.Describes [(⟨0, 0⟩, ⟨0, 1⟩), (⟨0, 1⟩, ⟨0, 0⟩)] (applyMap [(⟨0, 0⟩, ⟨0, 1⟩), (⟨0, 1⟩, ⟨0, 0⟩)])) ∧
    (⟨false, [⟨.creation, ⟨0, 0⟩⟩, ⟨.annihilation, ⟨0, 1⟩⟩], []⟩ : STerm).reindex [(⟨0, 0⟩, ⟨0, 1⟩), (⟨0, 1⟩, ⟨0, 0⟩)] =
      ⟨false, [⟨.creation, ⟨0, 1⟩⟩, ⟨.annihilation, ⟨0, 0⟩⟩], []⟩ :=
  ⟨applyMap_describes (by decide), by decide⟩

end Wicked
