import Verif.Proofs.WickContract
import Verif.Props.Wick
/-! # C44 (splitting windows), C47: linearity of `contract` -/
namespace Wicked
open CppLt CppEq Rational
namespace Wick

theorem wf_eq_nil {κ : Type _} [CppLt κ] [StrictWeak κ] {e : Lin κ} (h : Lin.WF e) (h0 : ∀ k, Lin.coef e k = 0) : e = [] := by
  cases e with
  | nil => rfl
  | cons p e => exact absurd ((Lin.coef_of_mem h.toOk (by simp)).symm.trans (h0 p.1)) (h.nonzero p (by simp))

/-- **C47** (scalars): multiplying the prefactor by `c` multiplies the result by `c`.  The two calls
succeed together; for `c ≠ 0` the results are equal as expressions (`==`), for `c = 0` the result is
empty. -/
theorem C47_contract_scale {o : OSI} {cfg : WickCfg} {ops : OperatorProduct} {minr maxr : Int} {f c : Rational}
    (hf : Canon f) (hc : Canon c) {e : Expr} (h : contract o cfg f ops minr maxr = .ok e) :
    ∃ e', contract o cfg (Rational.mul c f) ops minr maxr = .ok e' ∧
      (∀ k, Lin.coef e' k = toRat c * Lin.coef e k) ∧
      (toRat c ≠ 0 → Lin.isEqual e' (Lin.smul e c) = true) ∧ (toRat c = 0 → e' = []) := by
  obtain ⟨rs, hu, hw, hk, _⟩ := contract_spec hf h
  obtain ⟨e', he'⟩ := contract_ok hu (canon_mul hc hf)
  obtain ⟨rs', hu', hw', hk', _⟩ := contract_spec (canon_mul hc hf) he'
  rw [hu] at hu'; injection hu' with hu'; subst hu'
  have hkk : ∀ k, Lin.coef e' k = toRat c * Lin.coef e k := by
    intro k; rw [hk', hk, toRat_mul]; ring
  refine ⟨e', he', hkk, ?_, ?_⟩
  · intro hz
    obtain ⟨s1, s2, s3⟩ := Lin.smul_spec hw.toOk hc
    rw [Lin.isEqual_iff hw' (s2 hw hz)]
    intro k; rw [hkk, s3]; ring
  · intro hz
    exact wf_eq_nil hw' (fun k => by rw [hkk, hz, zero_mul])

theorem coefOf_congr (o : OSI) (cfg : WickCfg) (minr maxr : Int) (k : STerm) (a b : OperatorProduct)
    (h : eqv a b = true) : coefOf o cfg minr maxr k a = coefOf o cfg minr maxr k b := by
  rw [eqv_eq] at h; rw [h]

/-- **C47** (expressions): contracting a sum of operator expressions gives the sum of the contractions.
`A` and `B` are arbitrary stored expressions; `A + B` is the code's own addition, which merges terms. -/
theorem C47_contract_plus {o : OSI} {cfg : WickCfg} {f : Rational} (hf : Canon f) {A B : OpExpr} (hA : Lin.WF A)
    (hB : Lin.WF B) {minr maxr : Int} {eA eB : Expr} (h1 : contractExpr o cfg f A minr maxr = .ok eA)
    (h2 : contractExpr o cfg f B minr maxr = .ok eB) :
    ∃ e, contractExpr o cfg f (Lin.plus A B) minr maxr = .ok e ∧ Lin.isEqual e (Lin.plus eA eB) = true := by
  obtain ⟨a1, a2, a3⟩ := contractExpr_spec hf (fun p hp => hA.canon p hp) h1
  obtain ⟨b1, b2, b3⟩ := contractExpr_spec hf (fun p hp => hB.canon p hp) h2
  obtain ⟨_, p2, _⟩ := Lin.plus_spec hA.toOk hB.toOk
  have hW := p2 hA
  have hmem : ∀ p ∈ Lin.plus A B, ∃ rs, unitTerms o cfg p.1 minr maxr = .ok rs := by
    intro p hp
    exact Lin.mem_fold_add (fun k => ∃ rs, unitTerms o cfg k minr maxr = .ok rs) Prod.fst Prod.snd B A a1
      (fun b hb => b1 b hb) p hp
  obtain ⟨e, he⟩ := contractExpr_ok hf (fun p hp => hW.canon p hp) hmem
  refine ⟨e, he, ?_⟩
  obtain ⟨_, e2, e3⟩ := contractExpr_spec hf (fun p hp => hW.canon p hp) he
  obtain ⟨_, q2, q3⟩ := Lin.plus_spec a2.toOk b2.toOk
  rw [Lin.isEqual_iff e2 (q2 a2)]
  intro k
  rw [q3, e3, a3, b3, Lin.eval_plus _ (coefOf_congr o cfg minr maxr k) hA.toOk hB.toOk]; ring

/-- **C47** (sum over the terms): the coefficient of every term `k` in the contraction of an operator
expression is `f · Σ c · (coefficient of k in the contraction of ops with factor 1)` over the terms
`(ops, c)` of the expression, and every one of these contractions succeeds. -/
theorem C47_contract_terms {o : OSI} {cfg : WickCfg} {f : Rational} (hf : Canon f) {A : OpExpr} (hA : Lin.WF A)
    {minr maxr : Int} {e : Expr} (h : contractExpr o cfg f A minr maxr = .ok e) :
    ∃ g : OperatorProduct → Expr, (∀ p ∈ A, contract o cfg (Rational.ofInt 1) p.1 minr maxr = .ok (g p.1)) ∧
      ∀ k, Lin.coef e k = toRat f * (A.map (fun p => toRat p.2 * Lin.coef (g p.1) k)).sum := by
  obtain ⟨a1, a2, a3⟩ := contractExpr_spec hf (fun p hp => hA.canon p hp) h
  refine ⟨fun p => (contract o cfg (Rational.ofInt 1) p minr maxr).toOption.getD [], ?_, ?_⟩
  · intro p hp
    obtain ⟨rs, hrs⟩ := a1 p hp
    obtain ⟨x, hx⟩ := contract_ok hrs (canon_ofInt 1)
    beta_reduce; rw [hx]; rfl
  · intro k
    rw [a3]
    unfold Lin.eval
    congr 2
    apply List.map_congr_left
    intro p hp
    obtain ⟨rs, hrs⟩ := a1 p hp
    obtain ⟨x, hx⟩ := contract_ok hrs (canon_ofInt 1)
    obtain ⟨rs', hu', _, hk', _⟩ := contract_spec (canon_ofInt 1) hx
    rw [hrs] at hu'; injection hu' with hu'; subst hu'
    beta_reduce; rw [hx]
    show _ = toRat p.2 * Lin.coef x k
    rw [hk', coefOf, hrs, toRat_ofInt]; simp

-- contracting a one-term expression scaled by 3: `<f t>` in a closed-shell space
def exOpsFT : OperatorProduct := [mkOp "f" [(1, 0), (0, 1)], mkOp "t" [(0, 1), (1, 0)]]
example : ∃ e, contract exSR {} ⟨1, 2⟩ exOpsFT 0 4 = .ok e ∧ e.length = 4 := by
  have h : (contract exSR {} ⟨1, 2⟩ exOpsFT 0 4).toOption.map List.length = some 4 := by decide +kernel
  cases hc : contract exSR {} ⟨1, 2⟩ exOpsFT 0 4 with
  | error e => rw [hc] at h; cases h
  | ok e => rw [hc] at h; exact ⟨e, rfl, by simpa [Except.toOption] using h⟩

/-! ## C44 -/

theorem mapM_ok_map {α β : Type} [Inhabited β] (f : α → Res β) (l : List α) (xs : List β) :
    l.mapM (m := Except Fault) f = .ok xs ↔
      (∀ a ∈ l, ∃ x, f a = .ok x) ∧ xs = l.map (fun a => (f a).toOption.getD default) := by
  induction l generalizing xs with
  | nil => simp [pure, Except.pure, eq_comm]
  | cons a l ih =>
    rw [List.mapM_cons]
    cases hfa : f a with
    | error e => simp [bind, Except.bind, hfa]
    | ok x =>
      simp only [bind, Except.bind]
      cases hm : l.mapM (m := Except Fault) f with
      | error e =>
        constructor
        · intro h; cases h
        · rintro ⟨h, _⟩
          have := (ih _).2 ⟨fun b hb => h b (by simp [hb]), rfl⟩
          rw [hm] at this; cases this
      | ok ys =>
        simp only [pure, Except.pure, Except.ok.injEq]
        obtain ⟨i1, i2⟩ := (ih ys).1 hm
        constructor
        · rintro rfl
          refine ⟨?_, ?_⟩
          · intro b hb
            rcases List.mem_cons.1 hb with rfl | hb
            · exact ⟨x, hfa⟩
            · exact i1 b hb
          · rw [List.map_cons, hfa, i2]; rfl
        · rintro ⟨_, rfl⟩
          rw [List.map_cons, hfa, i2]; rfl

instance instInhabitedTermCoef : Inhabited (STerm × Rational) := ⟨⟨false, [], []⟩, ⟨0, 1⟩⟩

/-- the composite contractions of the two halves of a window are together those of the window -/
theorem composite_split {o : OSI} {cfg : WickCfg} {ops : OperatorProduct} (h8 : o.spaces.length ≤ 8)
    (hv : ∀ p ∈ ops, p.Valid o.spaces.length) :
    ∃ el, elementaryContractions o cfg ops = .ok el ∧ ((∀ a b, compositeContractions o.spaces.length ops el a b = .error .ub) ∨
      ∃ L : Int → Int → List (List Int),
      (∀ a b, compositeContractions o.spaces.length ops el a b = .ok (L a b)) ∧
      (∀ a b, (L a b).filter (inWindow el ops a b) = L a b) ∧
      (∀ a b c, a ≤ b + 1 → b ≤ c → (L a c).Perm (L a b ++ L (b + 1) c)) ∧ (∀ a b, b < a → L a b = [])) := by
  obtain ⟨el, hel, _, hmem⟩ := elementary_spec (cfg := cfg) hv h8
  have hg : ∀ e ∈ el, Good o.spaces.length ops.length e ∧ 2 ≤ e.numOps := by
    intro e he
    obtain ⟨g1, k, g2, g3⟩ := Wick.elementary_good h8 ((hmem e).1 he)
    exact ⟨g1, by omega⟩
  by_cases hsh : Shallow o.spaces.length ops el
  swap
  · exact ⟨el, hel, Or.inl (fun a b => (composite_spec hv h8 hg a b).2 hsh)⟩
  have hcs := fun a b => (composite_spec hv h8 hg a b).1 hsh
  refine ⟨el, hel, Or.inr ⟨fun a b => (hcs a b).choose, fun a b => (hcs a b).choose_spec.1, ?_, ?_, ?_⟩⟩
  · intro a b
    rw [List.filter_eq_self]
    intro cv hcv
    have hc := ((hcs a b).choose_spec.2.2.2 cv).1 hcv
    exact (inWindow_iff hv h8 (fun e he => (hg e he).1) hc.range a b).2 hc.window
  · intro a b c hab hbc
    have n1 := (hcs a b).choose_spec.2.2.1
    have n2 := (hcs (b + 1) c).choose_spec.2.2.1
    have n3 := (hcs a c).choose_spec.2.2.1
    have m1 := (hcs a b).choose_spec.2.2.2
    have m2 := (hcs (b + 1) c).choose_spec.2.2.2
    have m3 := (hcs a c).choose_spec.2.2.2
    rw [List.perm_ext_iff_of_nodup n3]
    · intro cv
      rw [List.mem_append, m1, m2, m3]
      constructor
      · intro h
        have hw := h.window
        by_cases hb : uncontracted o.spaces.length ops (pickAt el cv) ≤ b
        · exact Or.inl ⟨h.sorted, h.range, h.avail, hw.1, hb⟩
        · exact Or.inr ⟨h.sorted, h.range, h.avail, by omega, hw.2⟩
      · rintro (h | h)
        · have hw := h.window
          exact ⟨h.sorted, h.range, h.avail, hw.1, by omega⟩
        · have hw := h.window
          exact ⟨h.sorted, h.range, h.avail, by omega, hw.2⟩
    · rw [List.nodup_append]
      refine ⟨n1, n2, ?_⟩
      rintro x hx y hy rfl
      have w1 := ((m1 x).1 hx).window
      have w2 := ((m2 x).1 hy).window
      omega
  · intro a b hab
    apply List.eq_nil_iff_forall_not_mem.2
    intro cv hcv
    have w := (((hcs a b).choose_spec.2.2.2 cv).1 hcv).window
    omega

/-- **C44** (splitting): for `a ≤ b+1` and `b ≤ c`, `contract` over `[a,c]` succeeds exactly when it
does over `[a,b]` and `[b+1,c]`, and is then equal to the sum of the two results. -/
theorem C44_window_split {o : OSI} {cfg : WickCfg} {ops : OperatorProduct} (h8 : o.spaces.length ≤ 8)
    (hv : ∀ p ∈ ops, p.Valid o.spaces.length) {f : Rational} (hf : Canon f)
    {a b c : Int} (hab : a ≤ b + 1) (hbc : b ≤ c) :
    (∀ e, contract o cfg f ops a c = .ok e → ∃ e1 e2, contract o cfg f ops a b = .ok e1 ∧
        contract o cfg f ops (b + 1) c = .ok e2 ∧ Lin.isEqual e (Lin.plus e1 e2) = true) ∧
    (∀ e1 e2, contract o cfg f ops a b = .ok e1 → contract o cfg f ops (b + 1) c = .ok e2 →
        ∃ e, contract o cfg f ops a c = .ok e ∧ Lin.isEqual e (Lin.plus e1 e2) = true) := by
  obtain ⟨el, hel, hub | ⟨L, h1, h2, h3, _⟩⟩ := composite_split (cfg := cfg) h8 hv
  · have herr : ∀ a b, contract o cfg f ops a b = .error .ub := by
      intro a b
      unfold contract
      rw [hel]
      simp only [bind, Except.bind, hub]
    exact ⟨fun e he => (by rw [herr] at he; cases he), fun e1 e2 he => (by rw [herr] at he; cases he)⟩
  have hu : ∀ a b, unitTerms o cfg ops a b = (L a b).mapM (m := Except Fault)
      (fun cv => processOne o cfg ops (pick el cv) (Rational.ofInt 1)) := by
    intro a b
    unfold unitTerms
    rw [hel]
    simp only [bind, Except.bind]
    rw [h1]
    simp only
    rw [h2]
  let g : List Int → STerm × Rational := fun cv => (processOne o cfg ops (pick el cv) (Rational.ofInt 1)).toOption.getD default
  have key : ∀ {e e1 e2}, contract o cfg f ops a c = .ok e → contract o cfg f ops a b = .ok e1 →
      contract o cfg f ops (b + 1) c = .ok e2 → Lin.isEqual e (Lin.plus e1 e2) = true := by
    intro e e1 e2 he he1 he2
    obtain ⟨rs, u, w, k, _⟩ := contract_spec hf he
    obtain ⟨rs1, u1, w1, k1, _⟩ := contract_spec hf he1
    obtain ⟨rs2, u2, w2, k2, _⟩ := contract_spec hf he2
    obtain ⟨_, q2, q3⟩ := Lin.plus_spec w1.toOk w2.toOk
    rw [Lin.isEqual_iff w (q2 w1)]
    intro t
    rw [q3, k, k1, k2, ← mul_add]
    congr 1
    rw [hu, mapM_ok_map] at u u1 u2
    rw [u.2, u1.2, u2.2]
    unfold ucoef
    rw [List.map_map, List.map_map, List.map_map, ← List.sum_append, ← List.map_append]
    exact ((h3 a b c hab hbc).map _).sum_eq
  have ok_iff : ∀ a b, (∃ e, contract o cfg f ops a b = .ok e) ↔
      ∀ cv ∈ L a b, ∃ x, processOne o cfg ops (pick el cv) (Rational.ofInt 1) = .ok x := by
    intro a b
    constructor
    · rintro ⟨e, he⟩
      obtain ⟨rs, u, _⟩ := contract_spec hf he
      rw [hu, mapM_ok_map] at u; exact u.1
    · intro h
      have := (mapM_ok_map (fun cv => processOne o cfg ops (pick el cv) (Rational.ofInt 1)) (L a b) _).2 ⟨h, rfl⟩
      rw [← hu] at this
      exact contract_ok this hf
  have hp := h3 a b c hab hbc
  constructor
  · intro e he
    have h := (ok_iff a c).1 ⟨e, he⟩
    obtain ⟨e1, he1⟩ := (ok_iff a b).2 (fun cv hcv => h cv (hp.mem_iff.2 (by simp [hcv])))
    obtain ⟨e2, he2⟩ := (ok_iff (b + 1) c).2 (fun cv hcv => h cv (hp.mem_iff.2 (by simp [hcv])))
    exact ⟨e1, e2, he1, he2, key he he1 he2⟩
  · intro e1 e2 he1 he2
    have i1 := (ok_iff a b).1 ⟨e1, he1⟩
    have i2 := (ok_iff (b + 1) c).1 ⟨e2, he2⟩
    obtain ⟨e, he⟩ := (ok_iff a c).2 (fun cv hcv => by
      rcases List.mem_append.1 (hp.mem_iff.1 hcv) with h | h
      · exact i1 cv h
      · exact i2 cv h)
    exact ⟨e, he, key he he1 he2⟩

/-- **C44** (empty window): if `minrank > maxrank` and `contract` returns, it returns the empty expression;
and it does return if no composite contraction is made of more than 100 elementary ones (see
`C43_small_products`, `C43_deep_fails`). -/
theorem C44_empty_window {o : OSI} {cfg : WickCfg} {ops : OperatorProduct} (h8 : o.spaces.length ≤ 8)
    (hv : ∀ p ∈ ops, p.Valid o.spaces.length) {f : Rational} {a b : Int} (hab : b < a) :
    (∀ e, contract o cfg f ops a b = .ok e → e = []) ∧
    (∀ el, elementaryContractions o cfg ops = .ok el → Shallow o.spaces.length ops el → contract o cfg f ops a b = .ok []) := by
  obtain ⟨el, hel, hub | ⟨L, h1, _, _, h4⟩⟩ := composite_split (cfg := cfg) h8 hv
  · have herr : contract o cfg f ops a b = .error .ub := by
      unfold contract
      rw [hel]
      simp only [bind, Except.bind, hub]
    refine ⟨fun e he => (by rw [herr] at he; cases he), fun el' hel' hs => ?_⟩
    rw [hel] at hel'; injection hel' with hel'; subst hel'
    obtain ⟨L, hL, _⟩ := C43_composite_exact_partial a b h8 hv hel hs
    rw [hub] at hL; cases hL
  · have hok : contract o cfg f ops a b = .ok [] := by
      unfold contract
      rw [hel]
      simp only [bind, Except.bind]
      rw [h1, h4 a b hab]
      simp [processContractions, processThreads, bind, Except.bind, pure, Except.pure]
    exact ⟨fun e he => by rw [hok] at he; injection he with he; exact he.symm, fun _ _ _ => hok⟩

example : totalOps exSR.spaces.length exOpsFT ≤ 201 ∧
    (contract exSR {} (Rational.ofInt 1) exOpsFT 0 2).toOption.map List.length = some 3 ∧
    (contract exSR {} (Rational.ofInt 1) exOpsFT 3 4).toOption.map List.length = some 1 := by decide +kernel

end Wick
end Wicked
