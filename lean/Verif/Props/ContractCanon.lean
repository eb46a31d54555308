import Mathlib.Data.List.GetD
import Verif.Proofs.LinkSwap
import Verif.Props.Linked
import Verif.Props.OpProduct
/-! # C74: canonicalizing operator products does not change their contraction

`OperatorExpression.canonicalize` exchanges neighbouring operators that share no contractible space. For operators with an even number
of second-quantized operators `WickTheorem.contract` returns equal expressions for all products that differ by such exchanges, so
canonicalizing before contracting changes nothing - although the canonical form of a product is not unique (C41). -/
namespace Wicked
open CppLt CppEq Rational Lin
namespace Wick

theorem sel_const {α : Type _} (b c : Bool) (l : List α) : sel b (List.replicate l.length c) l = if c = b then l else [] := by
  induction l with
  | nil => simp [sel]
  | cons x l ih =>
    rw [List.length_cons, List.replicate_succ, sel, ih]
    split <;> simp

/-- the mask that brings `b` in front of `a` -/
def swapMask (n m : Nat) : List Bool := List.replicate n true ++ false :: true :: List.replicate m false

theorem sel_swap {α : Type _} (l r : List α) (a b : α) :
    sel true (swapMask l.length r.length) (l ++ a :: b :: r) ++ sel false (swapMask l.length r.length) (l ++ a :: b :: r) = l ++ b :: a :: r := by
  induction l with
  | nil => simp [swapMask, sel, sel_const]
  | cons x l ih =>
    have : swapMask (x :: l).length r.length = true :: swapMask l.length r.length := by simp [swapMask, List.replicate_succ]
    rw [this, List.cons_append, sel, sel, if_pos rfl, if_neg (by simp), List.cons_append, ih]
    rfl

theorem swapMask_true {n m i : Nat} (h : (swapMask n m).getD i false = true) : i < n ∨ i = n + 1 := by
  by_contra hc
  push Not at hc
  unfold swapMask at h
  rw [List.getD_append_right _ _ _ _ (by simpa using hc.1), List.length_replicate] at h
  obtain ⟨k, rfl⟩ := Nat.exists_eq_add_of_le hc.1
  rw [Nat.add_sub_cancel_left] at h
  match k, h with
  | 1, _ => exact hc.2 rfl
  | k + 2, h =>
    simp [List.getD_eq_getElem?_getD, List.getElem?_replicate] at h
    split at h <;> simp_all

theorem swapMask_false {n m i : Nat} (h : (swapMask n m).getD i true = false) : i = n ∨ n + 2 ≤ i := by
  by_contra hc
  push Not at hc
  unfold swapMask at h
  by_cases hi : i < n
  · rw [List.getD_append _ _ _ _ (by simpa using hi)] at h
    simp [List.getD_eq_getElem?_getD, List.getElem?_replicate, hi] at h
  · have : i = n + 1 := by omega
    subst this
    rw [List.getD_append_right _ _ _ _ (by simp), List.length_replicate] at h
    simp at h

theorem Exchanges.trans' {ns : Nat} {p q r : OperatorProduct} (h : Exchanges ns p q) (h' : Exchanges ns q r) : Exchanges ns p r := by
  induction h with
  | refl l => exact h'
  | step l r a b hno _ ih => exact .step l r a b hno (ih h')

theorem Exchanges.symm' {ns : Nat} {p q : OperatorProduct} (h : Exchanges ns p q) : Exchanges ns q p := by
  induction h with
  | refl l => exact .refl _
  | step l r a b hno _ ih => exact Exchanges.trans' ih (.step l r b a (fun hc => hno (shares_symm hc)) (.refl _))

section
variable {o : OSI} {cfg : WickCfg} (h8 : o.spaces.length ≤ 8) (hcg : cfg.canonGraph = true) {minr maxr : Int}
include h8 hcg

/-- one exchange -/
theorem swap_contract {l r : OperatorProduct} {a b : Operator} (hx : ∀ x ∈ l ++ a :: b :: r, EvenOp o x)
    (hno : ¬ SharesContractible o.spaces.length a b) {rs} (h : unitTerms o cfg (l ++ a :: b :: r) minr maxr = .ok rs) :
    ∃ rs', unitTerms o cfg (l ++ b :: a :: r) minr maxr = .ok rs' ∧ ∀ t, ucoef rs' t = ucoef rs t := by
  have hv : ∀ x ∈ l ++ a :: b :: r, x.Valid o.spaces.length := fun x h => (hx x h).valid
  have hev : AllEven (l ++ a :: b :: r) := fun x h => (hx x h).even
  have hml : (swapMask l.length r.length).length = (l ++ a :: b :: r).length := by simp [swapMask]
  have hP : IsPermOf (l ++ a :: b :: r).length (selPerm (swapMask l.length r.length)) := by rw [← hml]; exact selPerm_perm _
  have hg : graphOps (l ++ a :: b :: r) (selPerm (swapMask l.length r.length), []) = l ++ b :: a :: r := by
    rw [graphOps_selPerm _ _ _ hml, sel_swap]
  have hno' : ∀ x y, Exchanged (selPerm (swapMask l.length r.length)) x y →
      ¬ SharesContractible o.spaces.length (opAt (l ++ a :: b :: r) x.toNat) (opAt (l ++ a :: b :: r) y.toNat) := by
    intro x y hxy
    obtain ⟨h1, h2⟩ := exchanged_selPerm hxy
    have hy0 := ((mem_perm hP).1 (hxy.1.subset (by simp : y ∈ [x, y]))).1
    have hlt := hxy.2
    have e1 := swapMask_true h1
    have e2 := swapMask_false h2
    have ex : x.toNat = l.length + 1 := by omega
    have ey : y.toNat = l.length := by omega
    rw [ex, ey]
    unfold opAt
    rw [List.getD_append_right _ _ _ _ (by omega), List.getD_append_right _ _ _ _ (by omega)]
    simp only [Nat.sub_self, Nat.add_sub_cancel_left, List.getD_cons_zero, List.getD_cons_succ]
    rintro ⟨s, hs, hh⟩
    exact hno ⟨s, hs, hh.symm.imp And.symm And.symm⟩
  obtain ⟨rs', h'⟩ := rearranged_ok h8 hcg hv hev hP hno' ⟨rs, h⟩
  have hs := fun t => rearranged_sum (minr := minr) (maxr := maxr) h8 hcg hv hev t hP hno'
  have hv' := valid_graphOps (c := []) hv hP
  have hev' := allEven_graph (c := []) hP hev
  rw [hg] at h' hs hv' hev'
  refine ⟨rs', h', fun t => ?_⟩
  rw [ucoef_compM h8 hcg hv' hev' h', ucoef_compM h8 hcg hv hev h, hs t]

theorem exchanges_contract {p q : OperatorProduct} (hpq : Exchanges o.spaces.length p q) (hx : ∀ x ∈ p, EvenOp o x) {rs}
    (h : unitTerms o cfg p minr maxr = .ok rs) : ∃ rs', unitTerms o cfg q minr maxr = .ok rs' ∧ ∀ t, ucoef rs' t = ucoef rs t := by
  induction hpq generalizing rs with
  | refl l => exact ⟨rs, h, fun _ => rfl⟩
  | step l r a b hno _ ih =>
    obtain ⟨rs1, h1, e1⟩ := swap_contract h8 hcg hx hno h
    obtain ⟨rs2, h2, e2⟩ := ih (fun x hm => hx x (by
      simp only [List.mem_append, List.mem_cons] at hm ⊢; tauto)) h1
    exact ⟨rs2, h2, fun t => (e2 t).trans (e1 t)⟩

/-- **C74**, products: contracting products that differ by exchanges of neighbouring operators without a common contractible
space - the exchanges `canonicalize` makes - gives equal expressions, for every prefactor, rank window and cumulant limit. -/
theorem C74_exchanged_products {p q : OperatorProduct} (hpq : Exchanges o.spaces.length p q) (hx : ∀ x ∈ p, EvenOp o x) {f : Rational}
    (hf : Canon f) {e : Expr} (h : contract o cfg f p minr maxr = .ok e) :
    ∃ e', contract o cfg f q minr maxr = .ok e' ∧ isEqual e e' = true := by
  obtain ⟨rs, hrs, hwf, hc, _⟩ := contract_spec hf h
  obtain ⟨rs', hrs', he⟩ := exchanges_contract h8 hcg hpq hx hrs
  obtain ⟨e', h'⟩ := contract_ok hrs' hf
  refine ⟨e', h', ?_⟩
  obtain ⟨rs2, hrs2, hwf', hc', _⟩ := contract_spec hf h'
  rw [hrs'] at hrs2
  obtain rfl : rs' = rs2 := by injection hrs2
  exact (isEqual_iff hwf hwf').2 (fun t => by rw [hc, hc', he])

/-- **C74**, products: one contraction returns exactly if the other does. -/
theorem C74_exchanged_returns {p q : OperatorProduct} (hpq : Exchanges o.spaces.length p q) (hx : ∀ x ∈ p, EvenOp o x) {f : Rational}
    (hf : Canon f) : (∃ e, contract o cfg f p minr maxr = .ok e) ↔ ∃ e, contract o cfg f q minr maxr = .ok e := by
  constructor
  · rintro ⟨e, h⟩
    obtain ⟨e', h', _⟩ := C74_exchanged_products h8 hcg hpq hx hf h
    exact ⟨e', h'⟩
  · rintro ⟨e, h⟩
    obtain ⟨e', h', _⟩ := C74_exchanged_products h8 hcg (Exchanges.symm' hpq)
      (fun x hm => hx x ((exchanges_invariants hpq).1.symm.subset hm)) hf h
    exact ⟨e', h'⟩
end

/-! ### canonicalize makes only such exchanges, and no sign -/

theorem Exchanges.cons' {ns : Nat} (x : Operator) {p q : OperatorProduct} (h : Exchanges ns p q) : Exchanges ns (x :: p) (x :: q) := by
  induction h with
  | refl l => exact .refl _
  | step l r a b hno _ ih => exact .step (x :: l) r a b hno ih

theorem pass_exchanges (ns : Nat) : ∀ (k : Nat) (l : OperatorProduct) (n : Int), (∀ a ∈ l, a.Valid ns) → (∀ a ∈ l, a.numOps % 2 = 0) →
    Exchanges ns l (OperatorProduct.pass ns k l n).1 ∧ (OperatorProduct.pass ns k l n).2 % 2 = n % 2 := by
  intro k
  induction k with
  | zero => intro l n _ _; simp only [OperatorProduct.pass]; exact ⟨.refl _, trivial⟩
  | succ k ih =>
    intro l n hv he
    match l with
    | [] => exact ⟨.refl _, rfl⟩
    | [_] => exact ⟨.refl _, rfl⟩
    | a :: b :: l =>
      simp only [OperatorProduct.pass]
      split
      · rename_i hlt
        have hn := (ncless_iff (hv b (by simp)) (hv a (by simp))).1 hlt
        obtain ⟨h1, h2⟩ := ih (a :: l) (n + a.numOps * b.numOps) (fun x hx => hv x (by
          simp only [List.mem_cons] at hx ⊢; tauto)) (fun x hx => he x (by simp only [List.mem_cons] at hx ⊢; tauto))
        refine ⟨.step [] l a b (fun hc => hn.1 (shares_symm hc)) (Exchanges.cons' b h1), ?_⟩
        rw [h2]
        have ha := he a (by simp)
        obtain ⟨c, hc⟩ := Int.dvd_of_emod_eq_zero ha
        rw [hc, mul_assoc]
        omega
      · obtain ⟨h1, h2⟩ := ih (b :: l) n (fun x hx => hv x (by
          simp only [List.mem_cons] at hx ⊢; tauto)) (fun x hx => he x (by simp only [List.mem_cons] at hx ⊢; tauto))
        exact ⟨Exchanges.cons' a h1, h2⟩

theorem exchanges_perm {ns : Nat} {p q : OperatorProduct} (h : Exchanges ns p q) : p.Perm q := (exchanges_invariants h).1

theorem passes_exchanges (ns : Nat) : ∀ (k : Nat) (l : OperatorProduct) (n : Int), (∀ a ∈ l, a.Valid ns) → (∀ a ∈ l, a.numOps % 2 = 0) →
    Exchanges ns l (OperatorProduct.passes ns k l n).1 ∧ (OperatorProduct.passes ns k l n).2 % 2 = n % 2 := by
  intro k
  induction k with
  | zero => intro l n _ _; exact ⟨.refl _, rfl⟩
  | succ k ih =>
    intro l n hv he
    obtain ⟨h1, h2⟩ := pass_exchanges ns (k + 1) l n hv he
    have hp := exchanges_perm h1
    obtain ⟨h3, h4⟩ := ih (OperatorProduct.pass ns (k + 1) l n).1 (OperatorProduct.pass ns (k + 1) l n).2
      (fun x hx => hv x (hp.symm.subset hx)) (fun x hx => he x (hp.symm.subset hx))
    exact ⟨Exchanges.trans' h1 h3, h4.trans h2⟩

theorem canonicalize_exchanges {ns : Nat} {p : OperatorProduct} (hv : ∀ a ∈ p, a.Valid ns) (he : ∀ a ∈ p, a.numOps % 2 = 0) :
    Exchanges ns p (OperatorProduct.canonicalize ns p).1 ∧ toRat (OperatorProduct.canonicalize ns p).2 = 1 := by
  obtain ⟨h1, h2⟩ := passes_exchanges ns (p.length - 1) p 0 hv he
  refine ⟨h1, ?_⟩
  rw [(canonicalize_sign ns p).2, sgI_eq, if_pos]
  · simp
  · rw [Int.even_iff]; omega

/-- **C74**, expressions: contracting an operator expression and contracting it after `canonicalize()` gives equal expressions; if the first
contraction returns, so does the second. -/
theorem C74_canonicalize_contract {o : OSI} {cfg : WickCfg} (h8 : o.spaces.length ≤ 8) (hcg : cfg.canonGraph = true) {minr maxr : Int}
    {E : OpExpr} (hE : Built E) (hx : ∀ x, OpsOf E x → EvenOp o x) {f : Rational} (hf : Canon f) {e : Expr}
    (h : contractExpr o cfg f E minr maxr = .ok e) :
    ∃ e', contractExpr o cfg f (OpExpr.canonicalize o.spaces.length E) minr maxr = .ok e' ∧ isEqual e e' = true := by
  have hcan : ∀ p ∈ E, Canon p.2 := fun p hp => (built_wf hE).toOk.canon p hp
  obtain ⟨hu, hwf, hc⟩ := contractExpr_spec hf hcan h
  have hex : ∀ p ∈ E, Exchanges o.spaces.length p.1 (OperatorProduct.canonicalize o.spaces.length p.1).1 ∧
      toRat (OperatorProduct.canonicalize o.spaces.length p.1).2 = 1 := fun p hp =>
    canonicalize_exchanges (fun a ha => (hx a ⟨p, hp, ha⟩).valid) (fun a ha => (hx a ⟨p, hp, ha⟩).even)
  have hcof : ∀ p ∈ E, (∃ rs, unitTerms o cfg (OperatorProduct.canonicalize o.spaces.length p.1).1 minr maxr = .ok rs) ∧
      ∀ t, coefOf o cfg minr maxr t (OperatorProduct.canonicalize o.spaces.length p.1).1 = coefOf o cfg minr maxr t p.1 := by
    intro p hp
    obtain ⟨rs, hrs⟩ := hu p hp
    obtain ⟨rs', hrs', he⟩ := exchanges_contract h8 hcg (hex p hp).1 (fun x hm => hx x ⟨p, hp, hm⟩) hrs
    refine ⟨⟨rs', hrs'⟩, fun t => ?_⟩
    unfold coefOf
    rw [hrs, hrs']
    exact he t
  obtain ⟨hok, hwf2, _⟩ := Lin.fold_add E (fun p => (OperatorProduct.canonicalize o.spaces.length p.1).1)
    (fun p => Rational.mul (OperatorProduct.canonicalize o.spaces.length p.1).2 p.2)
    (fun p hp => canon_mul (canonicalize_sign _ p.1).1 (hcan p hp)) ([] : OpExpr) Lin.ok_nil
  have hmem := Lin.mem_fold_add (fun k => ∃ rs, unitTerms o cfg k minr maxr = .ok rs)
    (fun p : OperatorProduct × Rational => (OperatorProduct.canonicalize o.spaces.length p.1).1)
    (fun p => Rational.mul (OperatorProduct.canonicalize o.spaces.length p.1).2 p.2) E [] (by simp) (fun p hp => (hcof p hp).1)
  have hcan' : ∀ p ∈ OpExpr.canonicalize o.spaces.length E, Canon p.2 := fun p hp => hok.canon p hp
  obtain ⟨e', h'⟩ := contractExpr_ok (o := o) (cfg := cfg) (minr := minr) (maxr := maxr) hf hcan' hmem
  obtain ⟨_, hwf', hc'⟩ := contractExpr_spec hf hcan' h'
  refine ⟨e', h', (isEqual_iff hwf hwf').2 (fun t => ?_)⟩
  rw [hc, hc']
  congr 1
  unfold OpExpr.canonicalize
  rw [Lin.eval_fold_add (coefOf o cfg minr maxr t) (fun a b h => by rw [eqv_eq.1 h]) E
    (fun p => (OperatorProduct.canonicalize o.spaces.length p.1).1) (fun p => Rational.mul (OperatorProduct.canonicalize o.spaces.length p.1).2 p.2)
    (fun p hp => canon_mul (canonicalize_sign _ p.1).1 (hcan p hp)) [] Lin.ok_nil, Lin.eval_nil, zero_add, Lin.eval]
  congr 1
  apply List.map_congr_left
  intro p hp
  rw [toRat_mul, (hex p hp).2, one_mul, (hcof p hp).2 t]

/-! ### concrete cases -/

def swH : Operator := mkOp "h" [(1, 0), (0, 1)]
def swT : Operator := mkOp "t" [(0, 1), (1, 0)]
def swU : Operator := mkOp "u" [(0, 1), (1, 0)]

/-- the hypotheses hold for the expression `h u t`, which `canonicalize` rewrites to `h t u`, and its contraction is not empty -/
example : Built (oneProd [swH, swU, swT]) ∧ (∀ x, OpsOf (oneProd [swH, swU, swT]) x → EvenOp exSR x) ∧
    OpExpr.canonicalize 2 (oneProd [swH, swU, swT]) = oneProd [swH, swT, swU] ∧ swU ≠ swT ∧
    Exchanges 2 [swH, swU, swT] [swH, swT, swU] ∧
    (∃ e, contractExpr exSR {} (Rational.ofInt 1) (oneProd [swH, swU, swT]) 0 6 = .ok e ∧ 2 ≤ e.length) ∧
    (∃ e, contract exSR {} (Rational.ofInt 1) [swH, swU, swT] 0 6 = .ok e ∧ 2 ≤ e.length) := by
  refine ⟨oneProd_built _, ?_, by decide +kernel, by decide +kernel, ?_, ?_, ?_⟩
  · intro x hx
    have := oneProd_ops hx
    simp only [List.mem_cons, List.not_mem_nil, or_false] at this
    rcases this with rfl | rfl | rfl <;> exact ⟨mkOp_valid _ _ _ (by decide) (by decide), by decide +kernel⟩
  · refine .step [swH] [] swU swT ?_ (.refl _)
    rintro ⟨s, hs, h⟩
    interval_cases s <;> revert h <;> decide +kernel
  · obtain ⟨e, he, h⟩ := ok_of_check (x := contractExpr exSR {} (Rational.ofInt 1) (oneProd [swH, swU, swT]) 0 6)
      (fun e => decide (2 ≤ e.length)) (by decide +kernel)
    exact ⟨e, he, by simpa using h⟩
  · obtain ⟨e, he, h⟩ := ok_of_check (x := contract exSR {} (Rational.ofInt 1) [swH, swU, swT] 0 6)
      (fun e => decide (2 ≤ e.length)) (by decide +kernel)
    exact ⟨e, he, by simpa using h⟩

/-- operators that share a contractible space cannot be exchanged: `h t` has a full contraction, `t h` has none -/
theorem C74_contractible_do_not_exchange : SharesContractible 2 swH swT ∧ EvenOp exSR swH ∧ EvenOp exSR swT ∧
    ∃ e e', contract exSR {} (Rational.ofInt 1) [swH, swT] 0 0 = .ok e ∧ contract exSR {} (Rational.ofInt 1) [swT, swH] 0 0 = .ok e' ∧
      isEqual e e' = false := by
  refine ⟨⟨0, by decide, by decide +kernel⟩, ⟨mkOp_valid _ _ _ (by decide) (by decide), by decide +kernel⟩,
    ⟨mkOp_valid _ _ _ (by decide) (by decide), by decide +kernel⟩, ?_⟩
  obtain ⟨e, he, h⟩ := ok_of_check (x := contract exSR {} (Rational.ofInt 1) [swH, swT] 0 0)
      (fun e => decide (e.length ≠ 0)) (by decide +kernel)
  obtain ⟨e', he', h'⟩ := ok_of_check (x := contract exSR {} (Rational.ofInt 1) [swT, swH] 0 0)
      (fun e => decide (e = [])) (by decide +kernel)
  have h' : e' = [] := by simpa using h'
  subst h'
  refine ⟨e, [], he, he', ?_⟩
  match e, h with
  | _ :: _, _ => rfl

end Wick
end Wicked
