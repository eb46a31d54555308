import Verif.Proofs.WickProc
/-! `contract` as a sum over contractions -/
namespace Wicked
open CppLt CppEq Rational
namespace Wick

/-- the terms produced by `contract` with factor 1, before they are added up -/
def unitTerms (o : OSI) (cfg : WickCfg) (ops : OperatorProduct) (minr maxr : Int) : Res (List (STerm × Rational)) := do
  let el ← elementaryContractions o cfg ops
  let cvs ← compositeContractions o.spaces.length ops el minr maxr
  (cvs.filter (inWindow el ops minr maxr)).mapM (m := Except Fault)
    (fun cv => processOne o cfg ops (pick el cv) (Rational.ofInt 1))

theorem mapM_map_ok {α β γ : Type} (f : α → Res β) (g : β → γ) (l : List α) :
    l.mapM (m := Except Fault) (fun a => do let x ← f a; return g x) =
      (do let xs ← l.mapM (m := Except Fault) f; return xs.map g : Res (List γ)) := by
  induction l with
  | nil => rfl
  | cons a l ih =>
    rw [List.mapM_cons, List.mapM_cons, ih]
    cases f a with
    | error e => rfl
    | ok b =>
      simp only [bind, Except.bind, pure, Except.pure]
      cases l.mapM (m := Except Fault) f <;> rfl

theorem contract_eq (o : OSI) (cfg : WickCfg) (ops : OperatorProduct) (minr maxr : Int) {f : Rational} (hf : Canon f) :
    contract o cfg f ops minr maxr = (do
      let rs ← unitTerms o cfg ops minr maxr
      return rs.foldl (fun m r => Lin.add m r.1 (Rational.mul f r.2)) []) := by
  unfold contract unitTerms
  cases elementaryContractions o cfg ops with
  | error e => rfl
  | ok el =>
    simp only [bind, Except.bind]
    cases compositeContractions o.spaces.length ops el minr maxr with
    | error e => rfl
    | ok cvs =>
      simp only
      have key : processContractions o cfg el cvs f ops minr maxr = (do
          let rs ← (cvs.filter (inWindow el ops minr maxr)).mapM (m := Except Fault)
            (fun cv => processOne o cfg ops (pick el cv) (Rational.ofInt 1))
          return rs.foldl (fun m r => Lin.add m r.1 (Rational.mul f r.2)) []) := by
        rw [processContractions_eq]
        have h1 : (fun cv => processOne o cfg ops (pick el cv) f) = (fun cv => do
            let r ← processOne o cfg ops (pick el cv) (Rational.ofInt 1)
            return (r.1, Rational.mul f r.2)) := by
          funext cv; exact (processOne_unit o cfg ops (pick el cv) hf).1
        rw [h1, mapM_map_ok]
        cases (cvs.filter (inWindow el ops minr maxr)).mapM (m := Except Fault)
            (fun cv => processOne o cfg ops (pick el cv) (Rational.ofInt 1)) with
        | error e => rfl
        | ok rs => simp only [bind, Except.bind, pure, Except.pure, List.foldl_map]
      split
      · exact key
      · rw [processThreads_eq]; exact key

/-- coefficient of `k` in a list of contributions -/
def ucoef (rs : List (STerm × Rational)) (k : STerm) : ℚ := (rs.map (fun r => if eqv r.1 k = true then toRat r.2 else 0)).sum

theorem unitTerms_canon {o : OSI} {cfg : WickCfg} {ops : OperatorProduct} {minr maxr : Int} {rs}
    (h : unitTerms o cfg ops minr maxr = .ok rs) : ∀ r ∈ rs, Canon r.2 := by
  unfold unitTerms at h
  simp only [bind, Except.bind] at h
  split at h
  · cases h
  split at h
  · cases h
  intro r hr
  obtain ⟨cv, _, h1⟩ := forall₂_right ((mapM_ok_iff _ _ _).1 h) r hr
  exact (processOne_unit o cfg ops _ (canon_ofInt 1)).2 r h1

theorem contract_spec {o : OSI} {cfg : WickCfg} {ops : OperatorProduct} {minr maxr : Int} {f : Rational} (hf : Canon f)
    {e : Expr} (h : contract o cfg f ops minr maxr = .ok e) :
    ∃ rs, unitTerms o cfg ops minr maxr = .ok rs ∧ Lin.WF e ∧ (∀ k, Lin.coef e k = toRat f * ucoef rs k) ∧
      ∀ p ∈ e, ∃ r ∈ rs, r.1 = p.1 := by
  rw [contract_eq o cfg ops minr maxr hf] at h
  cases hu : unitTerms o cfg ops minr maxr with
  | error err => rw [hu] at h; cases h
  | ok rs =>
    rw [hu] at h
    simp only [bind, Except.bind, pure, Except.pure, Except.ok.injEq] at h
    obtain ⟨h1, h2, h3⟩ := Lin.fold_add rs Prod.fst (fun r => Rational.mul f r.2)
      (fun r hr => canon_mul hf (unitTerms_canon hu r hr)) ([] : Expr) Lin.ok_nil
    refine ⟨rs, rfl, by rw [← h]; exact h2 Lin.wf_nil, ?_, ?_⟩
    · intro k
      rw [← h]
      refine (h3 k).trans ?_
      unfold ucoef
      rw [← List.sum_map_mul_left, Lin.coef_nil, zero_add]
      congr 1
      apply List.map_congr_left
      intro r _
      simp only [toRat_mul]; split <;> ring
    · intro p hp
      rw [← h] at hp
      have := Lin.mem_fold_add (fun k => ∃ r ∈ rs, r.1 = k) Prod.fst (fun r => Rational.mul f r.2) rs [] (by simp)
        (fun r hr => ⟨r, hr, rfl⟩) p hp
      exact this

theorem contract_ok {o : OSI} {cfg : WickCfg} {ops : OperatorProduct} {minr maxr : Int} {rs}
    (h : unitTerms o cfg ops minr maxr = .ok rs) {f : Rational} (hf : Canon f) :
    ∃ e, contract o cfg f ops minr maxr = .ok e := by
  rw [contract_eq o cfg ops minr maxr hf, h]; exact ⟨_, rfl⟩

/-! ### operator expressions -/

theorem contractExpr_eq (o : OSI) (cfg : WickCfg) (f : Rational) (E : OpExpr) (minr maxr : Int) :
    contractExpr o cfg f E minr maxr = (do
      let es ← E.mapM (m := Except Fault) (fun p => contract o cfg (Rational.mul f p.2) p.1 minr maxr)
      return es.foldl (fun r e => Lin.plus r e) []) := by
  unfold contractExpr
  rw [← foldlM_eq_mapM]

/-- coefficient of `k` in the contraction of one product with factor 1 -/
def coefOf (o : OSI) (cfg : WickCfg) (minr maxr : Int) (k : STerm) (ops : OperatorProduct) : ℚ :=
  match unitTerms o cfg ops minr maxr with
  | .ok rs => ucoef rs k
  | .error _ => 0

theorem contractExpr_spec {o : OSI} {cfg : WickCfg} {f : Rational} (hf : Canon f) {E : OpExpr} (hE : ∀ p ∈ E, Canon p.2)
    {minr maxr : Int} {e : Expr} (h : contractExpr o cfg f E minr maxr = .ok e) :
    (∀ p ∈ E, ∃ rs, unitTerms o cfg p.1 minr maxr = .ok rs) ∧ Lin.WF e ∧
    ∀ k, Lin.coef e k = toRat f * Lin.eval (coefOf o cfg minr maxr k) E := by
  rw [contractExpr_eq] at h
  cases hm : E.mapM (m := Except Fault) (fun p => contract o cfg (Rational.mul f p.2) p.1 minr maxr) with
  | error err => rw [hm] at h; cases h
  | ok es =>
    rw [hm] at h
    simp only [bind, Except.bind, pure, Except.pure, Except.ok.injEq] at h
    have hF := (mapM_ok_iff _ _ _).1 hm
    have key : ∀ (E : OpExpr) (es : List Expr) (m : Expr), (∀ p ∈ E, Canon p.2) → Lin.WF m →
        List.Forall₂ (fun p e => contract o cfg (Rational.mul f p.2) p.1 minr maxr = .ok e) E es →
        (∀ p ∈ E, ∃ rs, unitTerms o cfg p.1 minr maxr = .ok rs) ∧ Lin.WF (es.foldl (fun r e => Lin.plus r e) m) ∧
        ∀ k, Lin.coef (es.foldl (fun r e => Lin.plus r e) m) k = Lin.coef m k + toRat f * Lin.eval (coefOf o cfg minr maxr k) E := by
      intro E es m hE hm hF
      induction hF generalizing m with
      | nil => exact ⟨by simp, hm, fun k => by simp [Lin.eval]⟩
      | @cons p e E es h1 h2 ih =>
        obtain ⟨rs, hu, hw, hc, _⟩ := contract_spec (canon_mul hf (hE p (by simp))) h1
        obtain ⟨p1, p2, p3⟩ := Lin.plus_spec hm.toOk hw.toOk
        obtain ⟨i1, i2, i3⟩ := ih (Lin.plus m e) (fun q hq => hE q (by simp [hq])) (p2 hm)
        refine ⟨?_, i2, ?_⟩
        · intro q hq
          rcases List.mem_cons.1 hq with rfl | hq
          · exact ⟨rs, hu⟩
          · exact i1 q hq
        · intro k
          rw [List.foldl_cons, i3, p3, hc, Lin.eval_cons, toRat_mul]
          have : coefOf o cfg minr maxr k p.1 = ucoef rs k := by unfold coefOf; rw [hu]
          rw [this, smul_eq_mul]; ring
    obtain ⟨k1, k2, k3⟩ := key E es [] hE Lin.wf_nil hF
    rw [← h]
    exact ⟨k1, k2, fun k => by rw [k3]; simp⟩

theorem contractExpr_ok {o : OSI} {cfg : WickCfg} {f : Rational} (hf : Canon f) {E : OpExpr} (hE : ∀ p ∈ E, Canon p.2)
    {minr maxr : Int} (h : ∀ p ∈ E, ∃ rs, unitTerms o cfg p.1 minr maxr = .ok rs) :
    ∃ e, contractExpr o cfg f E minr maxr = .ok e := by
  rw [contractExpr_eq]
  obtain ⟨es, hes⟩ := mapM_ok_of (fun p : OperatorProduct × Rational => contract o cfg (Rational.mul f p.2) p.1 minr maxr) E
    (fun p hp => by obtain ⟨rs, hrs⟩ := h p hp; exact contract_ok hrs (canon_mul hf (hE p hp)))
  rw [hes]; exact ⟨_, rfl⟩

/-! ### windows -/

theorem inWindow_iff {ns : Nat} {ops : OperatorProduct} {el : List EContr} (hv : ∀ p ∈ ops, p.Valid ns) (h8 : ns ≤ 8)
    (hel : ∀ e ∈ el, Good ns ops.length e) {cv : List Int} (hr : ∀ c ∈ cv, 0 ≤ c ∧ c < el.length) (minr maxr : Int) :
    inWindow el ops minr maxr cv = true ↔
      minr ≤ uncontracted ns ops (pickAt el cv) ∧ uncontracted ns ops (pickAt el cv) ≤ maxr := by
  have h1 : termRank el (OperatorProduct.numOps ops) cv = uncontracted ns ops (pickAt el cv) := by
    rw [uncontracted_eq hv h8 (pickAt el cv) (by
      intro e he
      obtain ⟨c, hc, rfl⟩ := List.mem_map.1 he
      have := hr c hc
      exact hel _ (elAt_mem (c := c) (by omega)))]
    unfold termRank OperatorProduct.numOps pickAt
    rw [foldl_add_eq_sum, foldl_add_eq_sum (fun c : Int => (el.getD c.toNat []).numOps) cv 0, sumNumOps_eq, List.map_map]
    simp; rfl
  unfold inWindow
  rw [h1]; simp

end Wick
end Wicked
