import Verif.Proofs.MaxCumulant
import Verif.Props.WickLinear
/-! # C68: `set_max_cumulant` drops exactly the terms with a larger cumulant -/
namespace Wicked
open CppLt CppEq Rational
namespace Wick

/-- **C68, one product.**  Lowering the largest cumulant to `k` never makes a call fail; it sets the
coefficient of every term that contains a cumulant of more than `k` bodies to zero and leaves every other
coefficient as it was.  The hypothesis on the labels says that no operator is itself named like such a
cumulant. -/
theorem C68_truncation {o : OSI} {cfg : WickCfg} {ops : OperatorProduct} (h8 : o.spaces.length ≤ 8)
    (hv : ∀ p ∈ ops, p.Valid o.spaces.length) {k : Int} (hk : k ≤ cfg.maxCumulant)
    (hlab : ∀ p ∈ ops, ∀ j, k < j → ¬ CumulantLabel j p.label) {f : Rational} (hf : Canon f) {minr maxr : Int} {e : Expr}
    (h : contract o cfg f ops minr maxr = .ok e) :
    ∃ e', contract o { cfg with maxCumulant := k } f ops minr maxr = .ok e' ∧
      (∀ t, t.CumulantAbove k → Lin.coef e' t = 0) ∧ (∀ t, ¬ t.CumulantAbove k → Lin.coef e' t = Lin.coef e t) ∧
      (∀ p ∈ e', ¬ p.1.CumulantAbove k) := by
  classical
  obtain ⟨rs, hu, _, hc, _⟩ := contract_spec hf h
  have hu' := unitTerms_filter h8 hv hk hlab hu
  obtain ⟨e', he'⟩ := contract_ok hu' hf
  obtain ⟨rs', hu2, _, hc', hm⟩ := contract_spec hf he'
  rw [hu'] at hu2
  injection hu2 with hu2
  subst hu2
  refine ⟨e', he', ?_, ?_, ?_⟩
  · intro t ht
    rw [hc', ucoef_filter, if_pos ht, mul_zero]
  · intro t ht
    rw [hc', ucoef_filter, if_neg ht, hc]
  · intro p hp
    obtain ⟨r, hr, e⟩ := hm p hp
    rw [← e]
    exact of_decide_eq_true (List.mem_filter.1 hr).2

open Classical in
theorem coefOf_filter {o : OSI} {cfg : WickCfg} {ops : OperatorProduct} (h8 : o.spaces.length ≤ 8)
    (hv : ∀ p ∈ ops, p.Valid o.spaces.length) {k : Int} (hk : k ≤ cfg.maxCumulant)
    (hlab : ∀ p ∈ ops, ∀ j, k < j → ¬ CumulantLabel j p.label) {minr maxr : Int} {rs : List (STerm × Rational)}
    (h : unitTerms o cfg ops minr maxr = .ok rs) (t : STerm) :
    coefOf o { cfg with maxCumulant := k } minr maxr t ops = if t.CumulantAbove k then 0 else coefOf o cfg minr maxr t ops := by
  unfold coefOf
  rw [unitTerms_filter h8 hv hk hlab h, h]
  exact ucoef_filter k rs t

/-- **C68, operator expressions.** -/
theorem C68_truncation_expr {o : OSI} {cfg : WickCfg} {E : OpExpr} (h8 : o.spaces.length ≤ 8)
    (hE : ∀ q ∈ E, Canon q.2) (hv : ∀ q ∈ E, ∀ p ∈ q.1, p.Valid o.spaces.length) {k : Int} (hk : k ≤ cfg.maxCumulant)
    (hlab : ∀ q ∈ E, ∀ p ∈ q.1, ∀ j, k < j → ¬ CumulantLabel j p.label) {f : Rational} (hf : Canon f) {minr maxr : Int} {e : Expr}
    (h : contractExpr o cfg f E minr maxr = .ok e) :
    ∃ e', contractExpr o { cfg with maxCumulant := k } f E minr maxr = .ok e' ∧
      (∀ t, t.CumulantAbove k → Lin.coef e' t = 0) ∧ (∀ t, ¬ t.CumulantAbove k → Lin.coef e' t = Lin.coef e t) := by
  classical
  obtain ⟨hu, _, hc⟩ := contractExpr_spec hf hE h
  obtain ⟨e', he'⟩ := contractExpr_ok (cfg := { cfg with maxCumulant := k }) hf hE (minr := minr) (maxr := maxr) (by
    intro p hp
    obtain ⟨rs, hrs⟩ := hu p hp
    exact ⟨_, unitTerms_filter h8 (hv p hp) hk (hlab p hp) hrs⟩)
  obtain ⟨_, _, hc'⟩ := contractExpr_spec hf hE he'
  have key : ∀ t, ∀ F : OpExpr, (∀ p ∈ F, p ∈ E) → Lin.eval (coefOf o { cfg with maxCumulant := k } minr maxr t) F =
      if t.CumulantAbove k then 0 else Lin.eval (coefOf o cfg minr maxr t) F := by
    intro t F
    induction F with
    | nil => intro _; simp [Lin.eval]
    | cons p F ih =>
      intro hF
      have hp := hF p (by simp)
      obtain ⟨rs, hrs⟩ := hu p hp
      rw [Lin.eval_cons, Lin.eval_cons, ih (fun q hq => hF q (by simp [hq])), coefOf_filter h8 (hv p hp) hk (hlab p hp) hrs]
      by_cases ht : t.CumulantAbove k
      · simp [ht]
      · simp [ht]
  refine ⟨e', he', ?_, ?_⟩
  · intro t ht
    rw [hc', key t E (fun _ h => h), if_pos ht, mul_zero]
  · intro t ht
    rw [hc', key t E (fun _ h => h), if_neg ht, hc]

/-- **C68, large values.**  A setting that is at least the number of creation, or of annihilation, operators
of the product in every general space has no effect: all such settings give the same result. -/
theorem C68_large_enough {o : OSI} {cfg : WickCfg} {ops : OperatorProduct} {k : Int}
    (hcfg : ∀ s < o.spaces.length, o.spaceType s = .ok .general →
      min ((ops.map (fun p => p.gm.cre s)).sum) ((ops.map (fun p => p.gm.ann s)).sum) ≤ min k cfg.maxCumulant)
    (f : Rational) (minr maxr : Int) :
    contract o { cfg with maxCumulant := k } f ops minr maxr = contract o cfg f ops minr maxr := by
  have hel : elementaryContractions o { cfg with maxCumulant := k } ops = elementaryContractions o cfg ops := by
    unfold elementaryContractions
    have : ∀ s ∈ List.range o.spaces.length, elemSpace o { cfg with maxCumulant := k } ops s = elemSpace o cfg ops s := by
      intro s hs
      rw [List.mem_range] at hs
      obtain ⟨t, ht⟩ := spaceType_ok o hs
      unfold elemSpace
      rw [ht]
      cases t
      · rfl
      · rfl
      · have h1 := hcfg s hs ht
        show elemGeneral k ops s = elemGeneral cfg.maxCumulant ops s
        unfold elemGeneral
        simp only [foldl_add_eq_sum, Int.zero_add]
        rw [map_range_opAt ops (fun p => p.gm.cre s), map_range_opAt ops (fun p => p.gm.ann s)]
        have : min (min ((ops.map (fun p => p.gm.cre s)).sum) ((ops.map (fun p => p.gm.ann s)).sum)) k =
            min (min ((ops.map (fun p => p.gm.cre s)).sum) ((ops.map (fun p => p.gm.ann s)).sum)) cfg.maxCumulant := by omega
        rw [this]
    have key : ∀ l : List Nat, (∀ s ∈ l, elemSpace o { cfg with maxCumulant := k } ops s = elemSpace o cfg ops s) →
        l.mapM (m := Except Fault) (elemSpace o { cfg with maxCumulant := k } ops) = l.mapM (m := Except Fault) (elemSpace o cfg ops) := by
      intro l
      induction l with
      | nil => intro _; rfl
      | cons s l ih =>
        intro h
        rw [List.mapM_cons, List.mapM_cons, h s (by simp), ih (fun s' hs' => h s' (by simp [hs']))]
    rw [key _ this]
  have hp : ∀ cs g, processOne o { cfg with maxCumulant := k } ops cs g = processOne o cfg ops cs g :=
    fun cs g => processOne_cfg rfl ops cs g
  unfold contract processContractions processThreads processSingle
  rw [hel]
  simp only [hp]

/-- the hypothesis is met by every product whose labels do not start with `lambda`, when `k ≥ 1` -/
theorem not_cumulantLabel_of_head {k : Int} (hk : 1 ≤ k) {l : Str} (h : ¬ "lambda".toList <+: l) :
    ∀ j, k < j → ¬ CumulantLabel j l := by
  rintro j hj (⟨rfl, _⟩ | ⟨_, rfl⟩)
  · omega
  · exact h ⟨_, rfl⟩

/-! ### a concrete case: the two-body cumulant of two one-body operators of an active space -/

/-- two one-body operators of the general space `a` -/
def exAct : OperatorProduct := [mkOp "f" [(0, 0), (1, 1), (0, 0)], mkOp "t" [(0, 0), (1, 1), (0, 0)]]

example : (∀ p ∈ exAct, p.Valid exMR.spaces.length) ∧ (∀ p ∈ exAct, ∀ j, (1 : Int) < j → ¬ CumulantLabel j p.label) ∧
    (∃ e, contract exMR {} (Rational.ofInt 1) exAct 0 0 = .ok e ∧ e.length = 2 ∧ ∃ p ∈ e, p.1.CumulantAbove 1) ∧
    ∃ e, contract exMR { maxCumulant := 1 } (Rational.ofInt 1) exAct 0 0 = .ok e ∧ e.length = 1 := by
  refine ⟨?_, ?_, ?_, ?_⟩
  · intro p hp
    rcases List.mem_cons.1 hp with rfl | hp
    · exact mkOp_valid _ _ _ (by decide) (by simp)
    · rw [List.mem_singleton.1 hp]
      exact mkOp_valid _ _ _ (by decide) (by simp)
  · intro p hp
    refine not_cumulantLabel_of_head (le_refl _) ?_
    rcases List.mem_cons.1 hp with rfl | hp
    · decide
    · rw [List.mem_singleton.1 hp]; decide
  · have h : (contract exMR {} (Rational.ofInt 1) exAct 0 0).toOption.map (fun e => (e.length, e.any (fun p => p.1.tensors.any (fun x => decide (x.label = "lambda2".toList))))) =
        some (2, true) := by decide +kernel
    cases hc : contract exMR {} (Rational.ofInt 1) exAct 0 0 with
    | error e => rw [hc] at h; cases h
    | ok e =>
      rw [hc] at h
      simp only [Except.toOption, Option.map_some, Option.some.injEq, Prod.mk.injEq] at h
      refine ⟨e, rfl, h.1, ?_⟩
      obtain ⟨p, hp, h1⟩ := List.any_eq_true.1 h.2
      obtain ⟨x, hx, h2⟩ := List.any_eq_true.1 h1
      refine ⟨p, hp, x, hx, 2, by omega, .inr ⟨by omega, ?_⟩⟩
      rw [of_decide_eq_true h2]
      decide +kernel
  · have h : (contract exMR { maxCumulant := 1 } (Rational.ofInt 1) exAct 0 0).toOption.map List.length = some 1 := by decide +kernel
    cases hc : contract exMR { maxCumulant := 1 } (Rational.ofInt 1) exAct 0 0 with
    | error e => rw [hc] at h; cases h
    | ok e => rw [hc] at h; exact ⟨e, rfl, by simpa [Except.toOption] using h⟩

/-- the condition of `C68_large_enough` at `k = 2` -/
example : ∀ s < exMR.spaces.length, exMR.spaceType s = .ok .general →
      min ((exAct.map (fun p => p.gm.cre s)).sum) ((exAct.map (fun p => p.gm.ann s)).sum) ≤ min 2 ({} : WickCfg).maxCumulant := by
  decide +kernel

end Wick
end Wicked
