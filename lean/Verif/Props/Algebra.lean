import Verif.Proofs.OpAlg
/-! # C18-C25: expressions as linear combinations -/
namespace Wicked
open CppLt CppEq Rational Lin

section generic
variable {κ : Type _} [CppLt κ] [CppEq κ] [StrictWeak κ] [EqvIsEq κ]

/-! ## C18 -/

theorem hist_spec (h : Hist κ) : WF h.run ∧ ∀ k, coef h.run k = h.total k := by
  induction h with
  | empty => exact ⟨wf_nil, fun _ => rfl⟩
  | add h k n d hd ih =>
    have hc := canon_mk2 n d hd
    refine ⟨wf_add ih.1 k hc, fun k' => ?_⟩
    show coef (Lin.add h.run k _) k' = _
    rw [coef_add ih.1.toOk k k' hc, ih.2, toRat_mk2, Hist.total]
    congr 1
    by_cases he : CppEq.eq k k' = true
    · rw [if_pos he, if_pos (cppEq_iff.1 he)]
    · rw [if_neg he, if_neg (fun h => he (cppEq_iff.2 h))]
  | plusEq h f ih ih' =>
    obtain ⟨_, h2, h3⟩ := plus_spec ih.1.toOk ih'.1.toOk
    exact ⟨h2 ih.1, fun k => (h3 k).trans (by rw [ih.2, ih'.2]; rfl)⟩
  | minusEq h f ih ih' =>
    obtain ⟨_, h2, h3⟩ := minus_spec ih.1.toOk ih'.1.toOk
    exact ⟨h2 ih.1, fun k => (h3 k).trans (by rw [ih.2, ih'.2]; rfl)⟩

theorem ok_no_dup {m : Lin κ} (h : Ok m) : m.Pairwise (fun p q => CppEq.eq p.1 q.1 = false ∧ CppEq.eq q.1 p.1 = false) := by
  refine h.sorted.imp (fun {p q} hlt => ?_)
  have h1 : ¬ eqv p.1 q.1 = true := by simp [eqv, hlt]
  have h2 : ¬ eqv q.1 p.1 = true := by simp [eqv, hlt]
  constructor
  · rw [← Bool.not_eq_true]; exact fun h => h1 (cppEq_iff.1 h)
  · rw [← Bool.not_eq_true]; exact fun h => h2 (cppEq_iff.1 h)

omit [CppLt κ] [StrictWeak κ] [EqvIsEq κ] in
/-- non-vacuity helper: the coefficient `2/3 - 1/6` -/
theorem hist_total_example (k : κ) (hk : CppEq.eq k k = true) :
    (Hist.minusEq (Hist.add .empty k 2 3 (by decide)) (Hist.add .empty k 1 6 (by decide))).total k = 1 / 2 := by
  simp [Hist.total, hk]; norm_num

/-- **C18**: after any history of `add`, `+=`, `-=` on any kind of term, looking a term up gives the
exact sum of everything added for it; no stored coefficient is zero; no two stored terms are `==`. -/
theorem C18_history (h : Hist κ) :
    (∀ k, ((SMap.find k h.run).map toRat).getD 0 = h.total k) ∧
    (∀ p ∈ h.run, toRat p.2 ≠ 0) ∧
    h.run.Pairwise (fun p q => CppEq.eq p.1 q.1 = false ∧ CppEq.eq q.1 p.1 = false) :=
  ⟨(hist_spec h).2, (hist_spec h).1.nonzero, ok_no_dup (hist_spec h).1.toOk⟩

/-! ## C19 -/

theorem built_wf {e : Lin κ} (h : Built e) : WF e := by
  induction h with
  | empty => exact wf_nil
  | add k n d hd _ ih => exact wf_add ih k (canon_mk2 n d hd)
  | plus _ _ ih ih' => exact (plus_spec ih.toOk ih'.toOk).2.1 ih
  | minus _ _ ih ih' => exact (minus_spec ih.toOk ih'.toOk).2.1 ih
  | neg _ ih => exact (neg_spec ih.toOk).1
  | mul f _ _ ih ih' => exact (mul_spec f ih.toOk ih'.toOk).1
  | mapKeys g _ ih => exact (mapKeys_spec g ih.toOk).1
  | smul n d hn hd _ ih =>
    refine (smul_spec ih.toOk (canon_mk2 n d hd)).2.1 ih ?_
    rw [toRat_mk2]
    exact div_ne_zero (by exact_mod_cast hn) (by exact_mod_cast hd)

/-- **C19**: `==` of built expressions is equality of every coefficient; the difference of two
expressions is empty iff they are `==`; `+` is commutative and associative up to `==`. -/
theorem C19_equality {e f g : Lin κ} (he : Built e) (hf : Built f) (hg : Built g) :
    (isEqual e f = true ↔ ∀ k, coef e k = coef f k) ∧
    (minus e f = [] ↔ isEqual e f = true) ∧
    minus e e = [] ∧
    isEqual (plus e f) (plus f e) = true ∧
    isEqual (plus (plus e f) g) (plus e (plus f g)) = true := by
  have we := built_wf he
  have wf := built_wf hf
  have wg := built_wf hg
  have hm : minus e f = [] ↔ isEqual e f = true := by
    rw [isEqual_iff we wf]
    obtain ⟨h1, h2, h3⟩ := minus_spec we.toOk wf.toOk
    constructor
    · intro h k
      have := h3 k; rw [h, coef_nil] at this; linarith
    · intro h
      cases hmm : minus e f with
      | nil => rfl
      | cons p m =>
        exfalso
        have hp : p ∈ minus e f := by rw [hmm]; exact List.mem_cons_self ..
        apply (h2 we).nonzero p hp
        rw [← coef_of_mem h1 hp, h3, h, sub_self]
  refine ⟨isEqual_iff we wf, hm, ?_, ?_, ?_⟩
  · obtain ⟨h1, h2, h3⟩ := minus_spec we.toOk we.toOk
    cases hmm : minus e e with
    | nil => rfl
    | cons p m =>
      exfalso
      have hp : p ∈ minus e e := by rw [hmm]; exact List.mem_cons_self ..
      apply (h2 we).nonzero p hp
      rw [← coef_of_mem h1 hp, h3, sub_self]
  · rw [isEqual_iff (built_wf (.plus he hf)) (built_wf (.plus hf he))]
    intro k
    rw [(plus_spec we.toOk wf.toOk).2.2, (plus_spec wf.toOk we.toOk).2.2]; ring
  · rw [isEqual_iff (built_wf (.plus (.plus he hf) hg)) (built_wf (.plus he (.plus hf hg)))]
    intro k
    rw [(plus_spec (built_wf (.plus he hf)).toOk wg.toOk).2.2, (plus_spec we.toOk wf.toOk).2.2,
      (plus_spec we.toOk (built_wf (.plus hf hg)).toOk).2.2, (plus_spec wf.toOk wg.toOk).2.2]; ring

/-- **C19**: `==` is an equivalence relation on built expressions -/
theorem C19_equivalence {e f g : Lin κ} (he : Built e) (hf : Built f) (hg : Built g) :
    isEqual e e = true ∧ (isEqual e f = true → isEqual f e = true) ∧
    (isEqual e f = true → isEqual f g = true → isEqual e g = true) := by
  rw [isEqual_iff (built_wf he) (built_wf he), isEqual_iff (built_wf he) (built_wf hf),
    isEqual_iff (built_wf hf) (built_wf he), isEqual_iff (built_wf hf) (built_wf hg),
    isEqual_iff (built_wf he) (built_wf hg)]
  exact ⟨fun _ => rfl, fun h k => (h k).symm, fun h h' k => (h k).trans (h' k)⟩

/-! ## C20 -/

theorem scaledByAdding_spec {e : Lin κ} (h : Ok e) {c : Rational} (hc : Canon c) :
    WF (scaledByAdding e c) ∧ ∀ k, coef (scaledByAdding e c) k = coef e k * toRat c := by
  obtain ⟨h1, h2, h3⟩ := fold_add e Prod.fst (fun p => Rational.mul p.2 c) (fun p hp => canon_mul (h.canon p hp) hc) [] ok_nil
  refine ⟨h2 wf_nil, fun k => (h3 k).trans ?_⟩
  rw [coef_nil, zero_add, coef_eq_sum h, ← List.sum_map_mul_right]
  congr 1; apply List.map_congr_left; intro p _
  simp only [toRat_mul]; split <;> ring

/-- **C20** (partial): `e*c` has every coefficient multiplied by `c`, for every canonical `c`; for
`c ≠ 0` it is `==` to the expression built by adding the scaled terms.  Missing: the second part
for `c = 0` is false of the code, see `C20_mul_by_zero`. -/
theorem C20_smul_partial {e : Lin κ} (he : Built e) {c : Rational} (hc : Canon c) :
    (∀ k, coef (smul e c) k = coef e k * toRat c) ∧
    (toRat c ≠ 0 → isEqual (smul e c) (scaledByAdding e c) = true) := by
  have we := built_wf he
  obtain ⟨h1, h2, h3⟩ := smul_spec we.toOk hc
  obtain ⟨s1, s2⟩ := scaledByAdding_spec we.toOk hc
  refine ⟨h3, fun hz => ?_⟩
  rw [isEqual_iff (h2 we hz) s1]
  intro k; rw [h3, s2]

/-- **C20**, negation for `c = 0`: multiplying any non-empty expression by zero keeps all its terms,
with stored zero coefficients, so the result is not `==` to the expression obtained by adding the
scaled terms, which is empty. -/
theorem C20_mul_by_zero {e : Lin κ} (he : Built e) (hne : e ≠ []) :
    isEqual (smul e (Rational.ofInt 0)) (scaledByAdding e (Rational.ofInt 0)) = false ∧
    scaledByAdding e (Rational.ofInt 0) = [] ∧ (smul e (Rational.ofInt 0)).length = e.length := by
  have we := built_wf he
  have hnil : scaledByAdding e (Rational.ofInt 0) = [] := by
    obtain ⟨s1, s2⟩ := scaledByAdding_spec we.toOk (canon_ofInt 0)
    cases hmm : scaledByAdding e (Rational.ofInt 0) with
    | nil => rfl
    | cons p m =>
      exfalso
      have hp : p ∈ scaledByAdding e (Rational.ofInt 0) := by rw [hmm]; exact List.mem_cons_self ..
      apply s1.nonzero p hp
      rw [← coef_of_mem s1.toOk hp, s2]; simp
  refine ⟨?_, hnil, by simp [smul]⟩
  rw [hnil]
  cases e with
  | nil => exact absurd rfl hne
  | cons p e => rfl

/-- **C20**: division by zero raises; division by `c ≠ 0` divides every coefficient exactly. -/
theorem C20_sdiv {e : Lin κ} (he : Built e) {c : Rational} (hc : Canon c) :
    (toRat c = 0 → sdiv e c = .error .throw) ∧
    (toRat c ≠ 0 → ∃ f, sdiv e c = .ok f ∧ f.map Prod.fst = e.map Prod.fst ∧
      ∀ k, coef f k = coef e k / toRat c) := by
  have we := built_wf he
  have h0 : Rational.eq c (Rational.mk2 0 1) = true ↔ toRat c = 0 := by
    rw [eq_toRat hc (canon_mk2 0 1 (by decide)), toRat_mk2]; simp
  constructor
  · intro h; rw [sdiv, if_pos (h0.2 h)]
  · intro h
    rw [sdiv, if_neg (fun hh => h (h0.1 hh))]
    refine ⟨_, rfl, by simp, fun k => ?_⟩
    clear h0
    unfold coef
    clear we he
    induction e with
    | nil => simp [SMap.find]
    | cons p e ih =>
      simp only [List.map_cons, SMap.find]
      split
      · exact ih
      · split
        · simp
        · simp [toRat_div]

/-- **C20**: for a positive divisor, `e/c == e*(1/c)`. -/
theorem C20_sdiv_pos_partial {e : Lin κ} (he : Built e) {n d : Int} (hn : 0 < n) (hd : 0 < d) :
    ∃ f, sdiv e (Rational.mk2 n d) = .ok f ∧ isEqual f (smul e (Rational.mk2 d n)) = true := by
  have we := built_wf he
  have hc := canon_mk2 n d hd.ne'
  have hc' := canon_mk2 d n hn.ne'
  have hnq : (n : ℚ) ≠ 0 := by exact_mod_cast hn.ne'
  have hdq : (d : ℚ) ≠ 0 := by exact_mod_cast hd.ne'
  have hz : toRat (Rational.mk2 n d) ≠ 0 := by rw [toRat_mk2]; exact div_ne_zero hnq hdq
  have hz' : toRat (Rational.mk2 d n) ≠ 0 := by rw [toRat_mk2]; exact div_ne_zero hdq hnq
  obtain ⟨f, hf, hk, hcf⟩ := (C20_sdiv he hc).2 hz
  refine ⟨f, hf, ?_⟩
  have hpos : 0 < (Rational.mk2 n d).num := by
    have h1 : 0 < toRat (Rational.mk2 n d) := by
      rw [toRat_mk2]; exact div_pos (by exact_mod_cast hn) (by exact_mod_cast hd)
    rw [toRat] at h1
    have h2 : (0:ℚ) < (Rational.mk2 n d).den := by exact_mod_cast hc.1
    have := (div_pos_iff_of_pos_right h2).1 h1
    exact_mod_cast this
  have hfe : f = e.map (fun p => (p.1, Rational.div p.2 (Rational.mk2 n d))) := by
    rw [sdiv] at hf
    split at hf
    · cases hf
    · cases hf; rfl
  have okf : Ok f := by
    rw [hfe]
    refine ⟨by rw [List.pairwise_map]; exact we.sorted, ?_⟩
    intro p hp
    obtain ⟨q, hq, rfl⟩ := List.mem_map.1 hp
    exact canon_div (we.canon q hq) hpos
  have wff : WF f := by
    refine ⟨okf, ?_⟩
    rw [hfe]
    intro p hp
    obtain ⟨q, hq, rfl⟩ := List.mem_map.1 hp
    simp only [toRat_div]
    exact div_ne_zero (we.nonzero q hq) hz
  obtain ⟨h1, h2, h3⟩ := smul_spec we.toOk hc'
  rw [isEqual_iff wff (h2 we hz')]
  intro k
  rw [hcf, h3, toRat_mk2, toRat_mk2]
  field_simp

/-! ## C25 -/

theorem dot_spec {e f : Lin κ} (h : Ok e) (h' : Ok f) :
    Canon (dot e f) ∧ toRat (dot e f) = (e.map (fun p => toRat p.2 * coef f p.1)).sum := by
  unfold dot
  have : ∀ (l : Lin κ) (r : Rational), (∀ p ∈ l, Canon p.2) → Canon r →
      Canon (l.foldl (fun r p => match SMap.find p.1 f with
        | some c => Rational.add r (Rational.mul p.2 c)
        | none => r) r) ∧
      toRat (l.foldl (fun r p => match SMap.find p.1 f with
        | some c => Rational.add r (Rational.mul p.2 c)
        | none => r) r) = toRat r + (l.map (fun p => toRat p.2 * coef f p.1)).sum := by
    intro l
    induction l with
    | nil => intro r _ hr; exact ⟨hr, by simp⟩
    | cons p l ih =>
      intro r hl hr
      have hp := hl p (List.mem_cons_self ..)
      rw [List.foldl_cons, List.map_cons, List.sum_cons]
      cases hf : SMap.find p.1 f with
      | none =>
        obtain ⟨i1, i2⟩ := ih r (fun q hq => hl q (List.mem_cons_of_mem _ hq)) hr
        refine ⟨i1, i2.trans ?_⟩
        simp [coef, hf]
      | some c =>
        have hcc := find_canon h' hf
        have hm := canon_mul hp hcc
        obtain ⟨i1, i2⟩ := ih (Rational.add r (Rational.mul p.2 c)) (fun q hq => hl q (List.mem_cons_of_mem _ hq)) (canon_add hr hm)
        refine ⟨i1, i2.trans ?_⟩
        rw [toRat_add hr hm, toRat_mul]; simp [coef, hf]; ring
  have := this e (Rational.ofInt 0) h.canon (canon_ofInt 0)
  exact ⟨this.1, this.2.trans (by simp)⟩

theorem dot_eq_dotSpec {e f : Lin κ} (h : Ok e) (h' : Ok f) : toRat (dot e f) = dotSpec e f := by
  rw [(dot_spec h h').2, dotSpec]
  congr 1; apply List.map_congr_left; intro p _
  rw [coef_eq_sum h', ← List.sum_map_mul_left]
  congr 1; apply List.map_congr_left; intro q _
  by_cases he : eqv q.1 p.1 = true
  · have : CppEq.eq p.1 q.1 = true := cppEq_iff.2 (by rw [eqv_symm]; exact he)
    rw [if_pos he, if_pos this]
  · have : ¬ CppEq.eq p.1 q.1 = true := fun hh => he (by rw [eqv_symm]; exact cppEq_iff.1 hh)
    rw [if_neg he, if_neg this, mul_zero]

theorem sum_comm_list {α β : Type _} (l : List α) (m : List β) (f : α → β → ℚ) :
    (l.map (fun a => (m.map (fun b => f a b)).sum)).sum = (m.map (fun b => (l.map (fun a => f a b)).sum)).sum := by
  induction l with
  | nil => simp
  | cons a l ih => simp [ih, List.sum_map_add]

/-- **C25**: `dot` is the sum over common terms of the products of coefficients; it is symmetric,
additive and homogeneous in each argument, non-negative on the diagonal, zero there only for the
empty expression; the sum under the square root in `norm` equals `dot(e,e)`. -/
theorem C25_dot {e f g : Lin κ} (he : Built e) (hf : Built f) (hg : Built g) :
    toRat (dot e f) = dotSpec e f ∧
    Rational.eq (dot e f) (dot f e) = true ∧
    toRat (dot (plus e g) f) = toRat (dot e f) + toRat (dot g f) ∧
    toRat (dot e (plus f g)) = toRat (dot e f) + toRat (dot e g) ∧
    (∀ c, Canon c → toRat (dot (smul e c) f) = toRat (dot e f) * toRat c) ∧
    0 ≤ toRat (dot e e) ∧ (toRat (dot e e) = 0 ↔ e = []) ∧
    toRat (normSq e) = toRat (dot e e) := by
  have we := built_wf he
  have wf := built_wf hf
  have wg := built_wf hg
  have symm : ∀ {a b : Lin κ}, Ok a → Ok b → toRat (dot a b) = toRat (dot b a) := by
    intro a b ha hb
    rw [dot_eq_dotSpec ha hb, dot_eq_dotSpec hb ha, dotSpec, dotSpec, sum_comm_list]
    congr 1; apply List.map_congr_left; intro p _
    congr 1; apply List.map_congr_left; intro q _
    have : CppEq.eq q.1 p.1 = CppEq.eq p.1 q.1 := by
      rw [Bool.eq_iff_iff, cppEq_iff (a := q.1), cppEq_iff (a := p.1)]
      exact ⟨eqv_symm, eqv_symm⟩
    rw [this, mul_comm]
  have addr : ∀ {a b c : Lin κ}, Ok a → Ok b → Ok c → toRat (dot a (plus b c)) = toRat (dot a b) + toRat (dot a c) := by
    intro a b c ha hb hc
    obtain ⟨h1, h2, h3⟩ := plus_spec hb hc
    rw [(dot_spec ha h1).2, (dot_spec ha hb).2, (dot_spec ha hc).2, ← List.sum_map_add]
    congr 1; apply List.map_congr_left; intro p _
    rw [h3]; ring
  have sq : toRat (dot e e) = (e.map (fun p => toRat p.2 * toRat p.2)).sum := by
    rw [(dot_spec we.toOk we.toOk).2]
    congr 1; apply List.map_congr_left; intro p hp
    rw [coef_of_mem we.toOk hp]
  refine ⟨dot_eq_dotSpec we.toOk wf.toOk, ?_, ?_, addr we.toOk wf.toOk wg.toOk, ?_, ?_, ?_, ?_⟩
  · rw [eq_toRat (dot_spec we.toOk wf.toOk).1 (dot_spec wf.toOk we.toOk).1]
    exact symm we.toOk wf.toOk
  · have hp := plus_spec we.toOk wg.toOk
    rw [symm hp.1 wf.toOk, addr wf.toOk we.toOk wg.toOk, symm wf.toOk we.toOk, symm wf.toOk wg.toOk]
  · intro c hc
    obtain ⟨h1, h2, h3⟩ := smul_spec we.toOk hc
    rw [(dot_spec h1 wf.toOk).2, (dot_spec we.toOk wf.toOk).2, smul, List.map_map, ← List.sum_map_mul_right]
    congr 1; apply List.map_congr_left; intro p _
    simp only [Function.comp, toRat_mul]; ring
  · rw [sq]
    apply List.sum_nonneg
    intro x hx
    obtain ⟨p, _, rfl⟩ := List.mem_map.1 hx
    exact mul_self_nonneg _
  · rw [sq]
    have nz := we.nonzero
    clear sq he we symm addr
    cases e with
    | nil => simp
    | cons p e =>
      simp only [reduceCtorEq, iff_false]
      have h1 : 0 < toRat p.2 * toRat p.2 := mul_self_pos.2 (nz p (List.mem_cons_self ..))
      have h2 : 0 ≤ (e.map (fun p => toRat p.2 * toRat p.2)).sum := by
        apply List.sum_nonneg
        intro x hx
        obtain ⟨p, _, rfl⟩ := List.mem_map.1 hx
        exact mul_self_nonneg _
      rw [List.map_cons, List.sum_cons]
      intro h; linarith
  · rw [sq]
    have : ∀ (l : Lin κ) (r : Rational), (∀ p ∈ l, Canon p.2) → Canon r →
        toRat (l.foldl (fun r p => Rational.add r (Rational.mul p.2 p.2)) r) =
          toRat r + (l.map (fun p => toRat p.2 * toRat p.2)).sum := by
      intro l
      induction l with
      | nil => intro r _ _; simp
      | cons p l ih =>
        intro r hl hr
        have hp := hl p (List.mem_cons_self ..)
        rw [List.foldl_cons, ih _ (fun q hq => hl q (List.mem_cons_of_mem _ hq)) (canon_add hr (canon_mul hp hp)),
          toRat_add hr (canon_mul hp hp), toRat_mul, List.map_cons, List.sum_cons]; ring
    refine (this e (Rational.ofInt 0) we.canon (canon_ofInt 0)).trans (by simp)

end generic

/-! ### Non-vacuity and negative witnesses on operator expressions -/

/-- an operator `T` with `c` creations and `a` annihilations in each of the first spaces -/
def exOp (label : String) (l : List (Int × Int)) : Operator :=
  ⟨label.toList, GraphMatrix.tab (fun i => l.getD i (0, 0))⟩

/-- `2/3 [T V] - 1/2 [V]`, built with `add` -/
def exExpr : OpExpr :=
  Lin.add (Lin.add [] [exOp "T" [(0, 1), (1, 0)], exOp "V" [(2, 2)]] (Rational.mk2 2 3)) [exOp "V" [(2, 2)]] (Rational.mk2 (-1) 2)

theorem exExpr_built : Built exExpr := .add _ _ _ (by decide) (.add _ _ _ (by decide) .empty)

example : exExpr.length = 2 := by decide

/-- C19, C20, C25 apply to a non-trivial expression -/
example : Built exExpr ∧ exExpr ≠ [] ∧ Canon (Rational.mk2 6 4) ∧
    isEqual exExpr (Lin.neg (Lin.neg exExpr)) = true ∧ minus exExpr exExpr = [] := by
  refine ⟨exExpr_built, by decide, by decide, by decide, by decide⟩

/-- C18 on a history with a cancellation: `(2/3 V + 1/2 T) - (2/3 V)` -/
example : (Hist.minusEq (Hist.add (Hist.add .empty [exOp "V" [(1, 1)]] 2 3 (by decide)) [exOp "T" [(1, 1)]] 1 2 (by decide))
    (Hist.add .empty [exOp "V" [(1, 1)]] 4 6 (by decide))).run = [([exOp "T" [(1, 1)]], Rational.mk2 1 2)] := by
  decide

/-- **C20**, negation for negative divisors: the quotient has the right value but is not `==` to
the product with the reciprocal, because `rational::operator/` leaves a negative denominator. -/
theorem C20_div_by_negative : ∃ e : OpExpr, Built e ∧ ∃ f, sdiv e (Rational.ofInt (-1)) = .ok f ∧
    isEqual f (smul e (Rational.ofInt (-1))) = false ∧
    (∀ w, coef f w = coef (smul e (Rational.ofInt (-1))) w) := by
  refine ⟨exExpr, exExpr_built, _, rfl, by decide, ?_⟩
  intro w
  obtain ⟨f, hf, _, h⟩ := (C20_sdiv exExpr_built (canon_ofInt (-1))).2 (by simp)
  rw [(C20_smul_partial exExpr_built (canon_ofInt (-1))).1]
  have : f = exExpr.map (fun p => (p.1, Rational.div p.2 (Rational.ofInt (-1)))) := by
    rw [sdiv, if_neg (by decide)] at hf; cases hf; rfl
  rw [← this, h]; simp; ring

end Wicked
