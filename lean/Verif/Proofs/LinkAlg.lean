import Verif.Proofs.LinkSplit
import Verif.Props.OpAlgebra
/-! Commutators with sums of single operators: a coproduct on the free algebra -/
namespace Wicked
open CppLt CppEq Rational Lin
namespace Wick

/-- masks that select operators of kind `τ` only -/
def allowedMasks (τ : Operator → Bool) : OperatorProduct → List (List Bool)
  | [] => [[]]
  | x :: p => (allowedMasks τ p).map (fun m => false :: m) ++ (if τ x then (allowedMasks τ p).map (fun m => true :: m) else [])

theorem mem_allowedMasks (τ : Operator → Bool) (p : OperatorProduct) (m : List Bool) :
    m ∈ allowedMasks τ p ↔ List.Forall₂ (fun b x => b = true → τ x = true) m p := by
  induction p generalizing m with
  | nil => simp [allowedMasks]
  | cons x p ih =>
    rw [allowedMasks, List.mem_append]
    cases m with
    | nil =>
      constructor
      · rintro (h | h)
        · simp at h
        · split at h <;> simp at h
      · intro h; cases h
    | cons b m =>
      rw [List.forall₂_cons]
      cases b
      · constructor
        · rintro (h | h)
          · obtain ⟨m', h1, h2⟩ := List.mem_map.1 h
            simp only [List.cons.injEq, true_and] at h2
            subst h2
            exact ⟨by simp, (ih _).1 h1⟩
          · split at h <;> simp at h
        · rintro ⟨_, h⟩
          exact Or.inl (List.mem_map_of_mem ((ih m).2 h))
      · constructor
        · rintro (h | h)
          · simp at h
          · split at h
            · rename_i hx
              obtain ⟨m', h1, h2⟩ := List.mem_map.1 h
              simp only [List.cons.injEq, true_and] at h2
              subst h2
              exact ⟨fun _ => hx, (ih _).1 h1⟩
            · simp at h
        · rintro ⟨hx, h⟩
          right
          rw [if_pos (hx rfl)]
          exact List.mem_map_of_mem ((ih m).2 h)

theorem nodup_allowedMasks (τ : Operator → Bool) (p : OperatorProduct) : (allowedMasks τ p).Nodup := by
  induction p with
  | nil => simp [allowedMasks]
  | cons x p ih =>
    rw [allowedMasks, List.nodup_append]
    refine ⟨ih.map (fun a b h => by simpa using h), ?_, ?_⟩
    · split
      · exact ih.map (fun a b h => by simpa using h)
      · simp
    · intro a ha b hb hab
      obtain ⟨m, _, rfl⟩ := List.mem_map.1 ha
      split at hb
      · obtain ⟨m', _, rfl⟩ := List.mem_map.1 hb
        cases hab
      · cases hb

theorem mask_allowed (τ : Operator → Bool) (ns : Nat) (ops : OperatorProduct) (cs : CContr) :
    mask τ ns ops cs ∈ allowedMasks τ ops := by
  rw [mem_allowedMasks, List.forall₂_iff_get]
  refine ⟨mask_length _ _ _ _, ?_⟩
  intro i h1 h2 h
  have hi : Isolated τ ns ops cs i := (mask_getD h2).1 (by
    rw [List.getD_eq_getElem?_getD, List.getElem?_eq_getElem h1]; exact h)
  have := hi i .refl
  unfold opAt at this
  rw [List.getD_eq_getElem?_getD, List.getElem?_eq_getElem h2] at this
  exact this

section
variable {o : OSI} {cfg : WickCfg} (h8 : o.spaces.length ≤ 8) (hcg : cfg.canonGraph = true) (τ : Operator → Bool) {minr maxr : Int}
include h8 hcg

theorem ucoef_split {ops : OperatorProduct} (hv : ∀ p ∈ ops, p.Valid o.spaces.length) (hev : AllEven ops) {rs}
    (h : unitTerms o cfg ops minr maxr = .ok rs) (t : STerm) :
    ucoef rs t = ((allowedMasks τ ops).map (fun m => phi o cfg τ minr maxr t (sel true m ops) (sel false m ops))).sum := by
  classical
  rw [ucoef_compM h8 hcg hv hev h t]
  have h1 := Finset.sum_fiberwise_of_maps_to (s := compM o cfg ops minr maxr) (t := (allowedMasks τ ops).toFinset)
    (g := fun μ => mask τ o.spaces.length ops μ.toList) (fun μ _ => List.mem_toFinset.2 (mask_allowed τ _ _ _))
    (fun μ => contrib o cfg t ops μ.toList)
  rw [← h1, List.sum_toFinset _ (nodup_allowedMasks τ ops)]
  congr 1
  apply List.map_congr_left
  intro m hm
  have hl := ((mem_allowedMasks τ ops m).1 hm).length_eq
  have := split_sum (τ := τ) (minr := minr) (maxr := maxr) h8 hcg hv hev t m hl
  convert this
end

/-! ### the coproduct -/

/-- pairs of words -/
abbrev OpAlg2 := MonoidAlgebra ℚ (FreeMonoid Operator × FreeMonoid Operator)

noncomputable section

/-- `x ↦ 1 ⊗ x + x ⊗ 1` for operators of kind `τ`, `x ↦ 1 ⊗ x` for the others -/
def delta (τ : Operator → Bool) : OpAlg →ₐ[ℚ] OpAlg2 :=
  MonoidAlgebra.lift ℚ _ _ (FreeMonoid.lift (fun x => MonoidAlgebra.single (1, FreeMonoid.of x) 1 +
    if τ x then MonoidAlgebra.single (FreeMonoid.of x, 1) 1 else 0))

/-- `1 ⊗ a` -/
def inr : OpAlg →ₐ[ℚ] OpAlg2 := MonoidAlgebra.mapDomainAlgHom ℚ ℚ (MonoidHom.inr (FreeMonoid Operator) (FreeMonoid Operator))
/-- `a ⊗ 1` -/
def inl : OpAlg →ₐ[ℚ] OpAlg2 := MonoidAlgebra.mapDomainAlgHom ℚ ℚ (MonoidHom.inl (FreeMonoid Operator) (FreeMonoid Operator))

theorem inr_single (w : FreeMonoid Operator) (c : ℚ) : inr (MonoidAlgebra.single w c) = MonoidAlgebra.single (1, w) c := by
  unfold inr
  simp [MonoidAlgebra.mapDomainAlgHom_apply, MonoidAlgebra.mapDomain_single]

theorem inl_single (w : FreeMonoid Operator) (c : ℚ) : inl (MonoidAlgebra.single w c) = MonoidAlgebra.single (w, 1) c := by
  unfold inl
  simp [MonoidAlgebra.mapDomainAlgHom_apply, MonoidAlgebra.mapDomain_single]

theorem inl_inr_comm (a b : OpAlg) : inl a * inr b = inr b * inl a := by
  induction a using MonoidAlgebra.induction_linear with
  | zero => simp
  | add x y hx hy => rw [map_add, add_mul, mul_add, hx, hy]
  | single u r =>
    induction b using MonoidAlgebra.induction_linear with
    | zero => simp
    | add x y hx hy => rw [map_add, add_mul, mul_add, hx, hy]
    | single v c =>
      rw [inl_single, inr_single, MonoidAlgebra.single_mul_single, MonoidAlgebra.single_mul_single, mul_comm r c]
      simp

theorem delta_one (τ : Operator → Bool) (x : Operator) : delta τ (wordVal [x]) =
    MonoidAlgebra.single (1, FreeMonoid.of x) 1 + if τ x then MonoidAlgebra.single (FreeMonoid.of x, 1) 1 else 0 := by
  unfold delta wordVal
  rw [MonoidAlgebra.lift_single, one_smul]
  exact FreeMonoid.lift_eval_of _ x

theorem wordVal_nil : wordVal [] = 1 := rfl

theorem delta_word (τ : Operator → Bool) (p : OperatorProduct) : delta τ (wordVal p) =
    ((allowedMasks τ p).map (fun m => (MonoidAlgebra.single (FreeMonoid.ofList (sel true m p), FreeMonoid.ofList (sel false m p)) 1 : OpAlg2))).sum := by
  induction p with
  | nil =>
    rw [wordVal_nil, map_one]
    simp only [allowedMasks, List.map_cons, List.map_nil, List.sum_cons, List.sum_nil, add_zero, sel]
    rfl
  | cons x p ih =>
    have h1 : wordVal (x :: p) = wordVal [x] * wordVal p := wordVal_mul [x] p
    rw [h1, map_mul, ih, delta_one, allowedMasks, List.map_append, List.sum_append, add_mul]
    congr 1
    · rw [List.map_map, ← List.sum_map_mul_left]
      congr 1
      apply List.map_congr_left
      intro m _
      rw [MonoidAlgebra.single_mul_single, one_mul]
      simp only [Function.comp_apply, sel, Bool.false_eq_true, if_false, if_true, Prod.mk_mul_mk, one_mul]
      rfl
    · by_cases hx : τ x = true
      · rw [if_pos hx, if_pos hx, List.map_map, ← List.sum_map_mul_left]
        congr 1
        apply List.map_congr_left
        intro m _
        rw [MonoidAlgebra.single_mul_single, one_mul]
        simp only [Function.comp_apply, sel, Bool.true_eq_false, if_false, if_true, Prod.mk_mul_mk, one_mul]
        rfl
      · rw [if_neg hx, if_neg hx]; simp

/-- linear extension of a function of pairs of words -/
def pairing (Φ : OperatorProduct → OperatorProduct → ℚ) : OpAlg2 →ₗ[ℚ] ℚ where
  toFun x := Finsupp.linearCombination ℚ (fun g : FreeMonoid Operator × FreeMonoid Operator => Φ (FreeMonoid.toList g.1) (FreeMonoid.toList g.2)) x.coeff
  map_add' x y := by rw [MonoidAlgebra.coeff_add, map_add]
  map_smul' c x := by rw [MonoidAlgebra.coeff_smul, map_smul]; rfl

theorem pairing_single (Φ : OperatorProduct → OperatorProduct → ℚ) (u v : OperatorProduct) (c : ℚ) :
    pairing Φ (MonoidAlgebra.single (FreeMonoid.ofList u, FreeMonoid.ofList v) c) = c * Φ u v := by
  show Finsupp.linearCombination ℚ _ (MonoidAlgebra.coeff (MonoidAlgebra.single _ c)) = _
  rw [MonoidAlgebra.coeff_single, Finsupp.linearCombination_single]
  rfl

theorem pairing_delta (Φ : OperatorProduct → OperatorProduct → ℚ) (τ : Operator → Bool) (E : OpExpr) :
    pairing Φ (delta τ (opVal E)) = Lin.eval (fun p => ((allowedMasks τ p).map (fun m => Φ (sel true m p) (sel false m p))).sum) E := by
  unfold opVal
  induction E with
  | nil => simp [Lin.eval]
  | cons p E ih =>
    rw [eval_cons, eval_cons, map_add, map_add, ih, map_smul, map_smul, delta_word, map_list_sum, List.map_map]
    congr 3
    apply List.map_congr_left
    intro m _
    rw [Function.comp_apply, pairing_single, one_mul]

theorem pairing_inr (Φ : OperatorProduct → OperatorProduct → ℚ) (E : OpExpr) :
    pairing Φ (inr (opVal E)) = Lin.eval (fun p => Φ [] p) E := by
  unfold opVal
  induction E with
  | nil => simp [Lin.eval]
  | cons p E ih =>
    rw [eval_cons, eval_cons, map_add, map_add, ih, map_smul, map_smul, wordVal, inr_single]
    congr 2
    exact (pairing_single Φ [] p.1 1).trans (one_mul _)

/-! ### commutators -/

/-- no part of `a` is split off by the coproduct -/
def Prim (τ : Operator → Bool) (a : OpAlg) : Prop := delta τ a = inr a

/-- operators of the other kind are split off whole -/
def Split (τ : Operator → Bool) (b : OpAlg) : Prop := ∃ c, delta τ b = inr b + inl c

theorem prim_commutator {τ : Operator → Bool} {a b : OpAlg} (ha : Prim τ a) (hb : Split τ b) : Prim τ (a * b - b * a) := by
  unfold Prim at *
  obtain ⟨c, hb⟩ := hb
  rw [map_sub, map_mul, map_mul, ha, hb, map_sub, map_mul, map_mul, mul_add, add_mul, inl_inr_comm]
  abel

theorem prim_word {τ : Operator → Bool} {p : OperatorProduct} (h : ∀ x ∈ p, τ x = false) : Prim τ (wordVal p) := by
  unfold Prim
  induction p with
  | nil => rw [wordVal_nil, map_one, map_one]
  | cons x p ih =>
    have h1 : wordVal (x :: p) = wordVal [x] * wordVal p := wordVal_mul [x] p
    rw [h1, map_mul, map_mul, ih (fun y hy => h y (by simp [hy])), delta_one, h x (by simp)]
    simp only [Bool.false_eq_true, if_false, add_zero]
    congr 1
    rw [wordVal, inr_single]
    rfl

theorem prim_expr {τ : Operator → Bool} {E : OpExpr} (h : ∀ p ∈ E, ∀ x ∈ p.1, τ x = false) : Prim τ (opVal E) := by
  unfold Prim opVal
  induction E with
  | nil => simp [Lin.eval]
  | cons p E ih =>
    rw [eval_cons, map_add, map_add, ih (fun q hq => h q (by simp [hq])), map_smul, map_smul, prim_word (h p (by simp))]

theorem split_expr {τ : Operator → Bool} {E : OpExpr} (h : ∀ p ∈ E, ∃ x, p.1 = [x]) : Split τ (opVal E) := by
  unfold opVal
  induction E with
  | nil => exact ⟨0, by simp [Lin.eval]⟩
  | cons p E ih =>
    obtain ⟨x, hx⟩ := h p (by simp)
    obtain ⟨c, ih⟩ := ih (fun q hq => h q (by simp [hq]))
    have e1 : inr (wordVal [x]) = MonoidAlgebra.single (1, FreeMonoid.of x) 1 := inr_single _ _
    have e2 : inl (wordVal [x]) = MonoidAlgebra.single (FreeMonoid.of x, 1) 1 := inl_single _ _
    by_cases ht : τ x = true
    · refine ⟨toRat p.2 • wordVal [x] + c, ?_⟩
      rw [eval_cons, map_add, map_add, map_add, ih, map_smul, map_smul, map_smul, hx, delta_one, if_pos ht, e1, e2, smul_add]
      abel
    · refine ⟨c, ?_⟩
      rw [eval_cons, map_add, map_add, ih, map_smul, map_smul, hx, delta_one, if_neg ht, e1, add_zero]
      abel

theorem prim_nested {τ : Operator → Bool} {a b : OpAlg} (ha : Prim τ a) (hb : Split τ b) (k : Nat) : Prim τ (nested a b k) := by
  induction k with
  | zero => exact ha
  | succ k ih => exact prim_commutator ih hb

theorem prim_foldl {τ : Operator → Bool} {l : List OpExpr} (hl : ∀ T ∈ l, Split τ (opVal T)) {a : OpAlg} (ha : Prim τ a) :
    Prim τ (l.foldl (fun x B => x * opVal B - opVal B * x) a) := by
  induction l generalizing a with
  | nil => exact ha
  | cons T l ih => exact ih (fun B hB => hl B (by simp [hB])) (prim_commutator ha (hl T (by simp)))

theorem prim_bch {τ : Operator → Bool} {a b : OpAlg} (ha : Prim τ a) (hb : Split τ b) (n : Nat) :
    Prim τ (∑ k ∈ Finset.range n, ((1 : ℚ) / k.factorial) • nested a b k) := by
  unfold Prim
  rw [map_sum, map_sum]
  apply Finset.sum_congr rfl
  intro k _
  rw [map_smul, map_smul, prim_nested ha hb k]

end
end Wick
end Wicked
