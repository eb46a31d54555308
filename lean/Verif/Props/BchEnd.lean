import Verif.Proofs.LinkCount
import Verif.Props.Linked
/-! # C73: the Baker-Campbell-Hausdorff series ends

With occupied and unoccupied spaces only, and a `T` whose operators cannot be contracted with one another, the nested commutators
of `H` with more than `N` factors `T` contract to nothing, where `N` bounds the number of second-quantized operators of the products
of `H`; so the contracted series `bch_series(H, T, n)` is the same for all `n ≥ N` (`N = 4` for a two-body Hamiltonian). -/
namespace Wicked
open CppLt CppEq Rational Lin
namespace Wick

/-- the coefficient of `t`, as a linear function of the expression that is contracted -/
noncomputable def coefFun (o : OSI) (cfg : WickCfg) (τ : Operator → Bool) (minr maxr : Int) (t : STerm) : OpAlg →ₗ[ℚ] ℚ :=
  (pairing (fun u v => phi o cfg τ minr maxr t u v)).comp (delta τ).toLinearMap

theorem coefFun_contract {o : OSI} {cfg : WickCfg} (h8 : o.spaces.length ≤ 8) (hcg : cfg.canonGraph = true) (τ : Operator → Bool) {E : OpExpr}
    (hE : ∀ p ∈ E, Canon p.2) (hx : ∀ p ∈ E, ∀ x ∈ p.1, EvenOp o x) {f : Rational} (hf : Canon f) {minr maxr : Int} {e : Expr}
    (h : contractExpr o cfg f E minr maxr = .ok e) (t : STerm) :
    Lin.coef e t = toRat f * coefFun o cfg τ minr maxr t (opVal E) := by
  obtain ⟨hu, hwf, hcoef⟩ := contractExpr_spec hf hE h
  have e1 : Lin.eval (coefOf o cfg minr maxr t) E =
      Lin.eval (fun p => ((allowedMasks τ p).map (fun m => phi o cfg τ minr maxr t (sel true m p) (sel false m p))).sum) E := by
    apply eval_congr'
    intro p hp
    obtain ⟨rs, hrs⟩ := hu p hp
    unfold coefOf
    rw [hrs]
    exact ucoef_split h8 hcg τ (fun x hh => (hx p hp x hh).valid) (fun x hh => (hx p hp x hh).even) hrs t
  rw [hcoef t, e1, ← pairing_delta (fun u v => phi o cfg τ minr maxr t u v)]
  rfl

/-- the words of nested commutators with more than `N` factors contribute nothing -/
theorem coefFun_zero {o : OSI} {cfg : WickCfg} (h8 : o.spaces.length ≤ 8) (hp : OnlyPairs o) {τ : Operator → Bool} {E : OpExpr}
    (hprim : Prim τ (opVal E)) (hx : ∀ p ∈ E, ∀ x ∈ p.1, EvenOp o x)
    (hT : ∀ p ∈ E, ∀ x ∈ p.1, ∀ y ∈ p.1, τ x = true → τ y = true → NeverContract o x y)
    (hN : ∀ p ∈ E, ((p.1.filter (fun x => !τ x)).map Operator.numOps).sum < (p.1.countP τ : Int)) (minr maxr : Int) (t : STerm) :
    coefFun o cfg τ minr maxr t (opVal E) = 0 := by
  show pairing _ (delta τ (opVal E)) = 0
  rw [hprim, pairing_inr]
  by_contra hne
  obtain ⟨p, hpE, hphi⟩ := eval_ne_zero hne
  unfold phi at hphi
  obtain ⟨μ, hμ, hc⟩ := Finset.exists_ne_zero_of_sum_ne_zero hphi
  rw [Finset.mem_filter] at hμ
  obtain ⟨hμ1, hμ2⟩ := hμ
  simp only [List.nil_append, List.length_nil, List.replicate_zero] at hμ1 hμ2
  have hv : ∀ x ∈ p.1, x.Valid o.spaces.length := fun x hh => (hx p hpE x hh).valid
  have hcomp := (mem_compM h8 hv minr maxr μ).1 hμ1
  have := few_ops h8 hv hp (hT p hpE) hcomp (fun i hi hI => by
    have := (mask_getD hi).2 hI
    rw [hμ2] at this
    simp [List.getD_eq_getElem?_getD, hi] at this)
  have := hN p hpE
  omega

/-- the products of a nested commutator, with the number of factors -/
theorem mem_foldl_commutator_nat {Q : Nat → OperatorProduct → Prop} : ∀ {Ts : List OpExpr} {k : Nat}
    (_ : ∀ T ∈ Ts, ∀ q ∈ T, ∀ k p, Q k p → Q (k + 1) (p ++ q.1) ∧ Q (k + 1) (q.1 ++ p)) {A : OpExpr} (_ : ∀ p ∈ A, Q k p.1),
    ∀ r ∈ Ts.foldl OpExpr.commutator A, Q (k + Ts.length) r.1 := by
  intro Ts
  induction Ts with
  | nil => intro k _ A hA; exact hA
  | cons T Ts ih =>
    intro k hQ A hA
    have := ih (k := k + 1) (fun T' hT' => hQ T' (by simp [hT']))
      (mem_commutator (Q := Q (k + 1)) (fun p hp q hq => hQ T (by simp) q hq k p.1 (hA p hp)))
    rw [List.length_cons, show k + (Ts.length + 1) = k + 1 + Ts.length by omega]
    exact this

theorem built_commutatorN {H : OpExpr} {Ts : List OpExpr} (hH : Built H) (hT : ∀ T ∈ Ts, Built T) : Built (OpExpr.commutatorN (H :: Ts)) := by
  show Built (Ts.foldl OpExpr.commutator H)
  induction Ts generalizing H with
  | nil => exact hH
  | cons T Ts ih => exact ih (built_commutator hH (hT T (by simp))) (fun T' h' => hT T' (by simp [h']))

theorem built_bch {H T : OpExpr} (hH : Built H) (hT : Built T) (n : Int) : Built (OpExpr.bchSeries H T n) :=
  (bchLoop_spec hT (opVal H) n.toNat 0 (OpExpr.plus [] H) H (.plus .empty hH) hH (by simp [nested]) (by
    have : opVal (OpExpr.plus [] H) = opVal H := by
      rw [opVal_plus ok_nil (built_wf hH).toOk, opVal_nil, zero_add]
    rw [this]; simp [nested])).1

theorem commutatorN_zero {o : OSI} {cfg : WickCfg} (h8 : o.spaces.length ≤ 8) (hp : OnlyPairs o)
    {H : OpExpr} {Ts : List OpExpr} {N : Nat} (hH : Built H) (hN : AtMostOps N H) (hT : ∀ T ∈ Ts, Built T ∧ SingleOps T)
    (hHx : ∀ x, OpsOf H x → EvenOp o x) (hTx : ∀ T ∈ Ts, ∀ x, OpsOf T x → EvenOp o x ∧ ¬ OpsOf H x)
    (hTT : ∀ T ∈ Ts, ∀ T' ∈ Ts, ∀ x y, OpsOf T x → OpsOf T' y → NeverContract o x y) (hlen : N < Ts.length)
    {τ : Operator → Bool} (hτ : ∀ x, τ x = false ↔ OpsOf H x) (minr maxr : Int) (t : STerm) :
    coefFun o cfg τ minr maxr t (opVal (OpExpr.commutatorN (H :: Ts))) = 0 := by
  have hfalse : ∀ p ∈ H, ∀ x ∈ p.1, τ x = false := fun p hp x hx => (hτ x).2 ⟨p, hp, hx⟩
  have hall := mem_foldl_commutator_nat (Ts := Ts) (A := H) (k := 0)
    (Q := fun k p => (∀ x ∈ p, EvenOp o x ∧ (τ x = true → ∃ T ∈ Ts, OpsOf T x)) ∧ p.countP τ = k ∧
      ((p.filter (fun x => !τ x)).map Operator.numOps).sum ≤ (N : Int))
    (fun T hTm q hq k p hp => by
      obtain ⟨x, hx⟩ := (hT T hTm).2 q hq
      have hxT : OpsOf T x := ⟨q, hq, by rw [hx]; simp⟩
      have hxt : τ x = true := by
        by_contra hc
        exact (hTx T hTm x hxT).2 ((hτ x).1 (by simpa using hc))
      have h1 : ∀ y ∈ q.1, EvenOp o y ∧ (τ y = true → ∃ T ∈ Ts, OpsOf T y) :=
        fun y hy => ⟨(hTx T hTm y ⟨q, hq, hy⟩).1, fun _ => ⟨T, hTm, q, hq, hy⟩⟩
      rw [hx] at h1 ⊢
      obtain ⟨a, b, c⟩ := hp
      refine ⟨⟨?_, ?_, ?_⟩, ⟨?_, ?_, ?_⟩⟩
      · intro y hy
        rcases List.mem_append.1 hy with h | h
        · exact a y h
        · exact h1 y h
      · rw [List.countP_append, b]; simp [hxt]
      · rw [List.filter_append]; simpa [hxt] using c
      · intro y hy
        rcases List.mem_append.1 hy with h | h
        · exact h1 y h
        · exact a y h
      · rw [List.countP_append, b]; simp [hxt, Nat.add_comm]
      · rw [List.filter_append]; simpa [hxt] using c)
    (fun p hp => by
      refine ⟨fun x hx => ⟨hHx x ⟨p, hp, hx⟩, fun h => by rw [hfalse p hp x hx] at h; cases h⟩, ?_, ?_⟩
      · rw [List.countP_eq_zero]
        intro x hx
        rw [hfalse p hp x hx]; simp
      · have : p.1.filter (fun x => !τ x) = p.1 := by
          rw [List.filter_eq_self]
          intro x hx
          rw [hfalse p hp x hx]; rfl
        rw [this]
        exact hN p hp)
  refine coefFun_zero h8 hp ?_ (fun p hp x hx => ((hall p hp).1 x hx).1) ?_ ?_ minr maxr t
  · show Prim τ (opVal (OpExpr.commutatorN (H :: Ts)))
    rw [C23_nested hH Ts (fun B hB => (hT B hB).1)]
    exact prim_foldl (fun T hTm => split_expr (hT T hTm).2) (prim_expr hfalse)
  · intro p hp x hx y hy h1 h2
    obtain ⟨T, hT1, hT2⟩ := ((hall p hp).1 x hx).2 h1
    obtain ⟨T', hT1', hT2'⟩ := ((hall p hp).1 y hy).2 h2
    exact hTT T hT1 T' hT1' x y hT2 hT2'
  · intro p hp
    have h1 := (hall p hp).2.1
    have h2 := (hall p hp).2.2
    have h1' : p.1.countP τ = Ts.length := by simpa using h1
    rw [h1']
    omega

/-- **C73**, nested commutators: with occupied and unoccupied spaces only, operators `Tᵢ` that cannot be contracted with one
another, and more `Tᵢ` than second-quantized operators in any product of `H`, the nested commutator contracts to nothing: the
returned expression is empty, for every rank window and prefactor. -/
theorem C73_commutator_vanishes {o : OSI} {cfg : WickCfg} (h8 : o.spaces.length ≤ 8) (hcg : cfg.canonGraph = true) (hp : OnlyPairs o)
    {H : OpExpr} {Ts : List OpExpr} {N : Nat} (hH : Built H) (hN : AtMostOps N H) (hT : ∀ T ∈ Ts, Built T ∧ SingleOps T)
    (hHx : ∀ x, OpsOf H x → EvenOp o x) (hTx : ∀ T ∈ Ts, ∀ x, OpsOf T x → EvenOp o x ∧ ¬ OpsOf H x)
    (hTT : ∀ T ∈ Ts, ∀ T' ∈ Ts, ∀ x y, OpsOf T x → OpsOf T' y → NeverContract o x y) (hlen : N < Ts.length)
    {f : Rational} (hf : Canon f) {minr maxr : Int} {e : Expr}
    (h : contractExpr o cfg f (OpExpr.commutatorN (H :: Ts)) minr maxr = .ok e) : e = [] := by
  obtain ⟨τ, hτ⟩ := tau_ops H
  have hb := built_commutatorN hH (fun T h => (hT T h).1)
  have hcan : ∀ p ∈ OpExpr.commutatorN (H :: Ts), Canon p.2 := fun p hp => (built_wf hb).toOk.canon p hp
  have hev := mem_foldl_commutator (Ts := Ts) (A := H) (Q := fun p => ∀ x ∈ p, EvenOp o x)
      (fun T hT q hq p hp => even_append (fun x hx => (hTx T hT x ⟨q, hq, hx⟩).1) hp) (fun p hp x hx => hHx x ⟨p, hp, hx⟩)
  obtain ⟨_, hwf, _⟩ := contractExpr_spec hf hcan h
  by_contra hne
  obtain ⟨q, hq⟩ := List.exists_mem_of_ne_nil e hne
  have h1 := coefFun_contract h8 hcg τ hcan hev hf h q.1
  rw [commutatorN_zero h8 hp hH hN hT hHx hTx hTT hlen hτ, mul_zero, coef_of_mem hwf.toOk hq] at h1
  exact hwf.nonzero q hq h1

theorem nested_commutatorN {A B : OpExpr} (hA : Built A) (hB : Built B) (k : Nat) :
    opVal (OpExpr.commutatorN (A :: List.replicate k B)) = nested (opVal A) (opVal B) k := by
  rw [C23_nested hA _ (fun C hC => by rw [(List.mem_replicate.1 hC).2]; exact hB)]
  induction k with
  | zero => rfl
  | succ k ih =>
    rw [List.replicate_succ', List.foldl_append, ih]
    rfl

/-- **C73**, the series: the contracted `bch_series(H, T, n)` does not depend on `n` once `n` reaches the number of second-quantized
operators in the products of `H`: any two such results are equal expressions. -/
theorem C73_bch_ends {o : OSI} {cfg : WickCfg} (h8 : o.spaces.length ≤ 8) (hcg : cfg.canonGraph = true) (hp : OnlyPairs o)
    {H T : OpExpr} {N : Nat} (hH : Built H) (hN : AtMostOps N H) (hT : Built T) (hT1 : SingleOps T)
    (hHx : ∀ x, OpsOf H x → EvenOp o x) (hTx : ∀ x, OpsOf T x → EvenOp o x ∧ ¬ OpsOf H x)
    (hTT : ∀ x y, OpsOf T x → OpsOf T y → NeverContract o x y) {n m : Int} (hn : (N : Int) ≤ n) (hm : (N : Int) ≤ m)
    {f : Rational} (hf : Canon f) {minr maxr : Int} {e e' : Expr}
    (h : contractExpr o cfg f (OpExpr.bchSeries H T n) minr maxr = .ok e)
    (h' : contractExpr o cfg f (OpExpr.bchSeries H T m) minr maxr = .ok e') : Lin.isEqual e e' = true := by
  obtain ⟨τ, hτ⟩ := tau_ops H
  have key : ∀ {n : Int} {e : Expr}, (N : Int) ≤ n → contractExpr o cfg f (OpExpr.bchSeries H T n) minr maxr = .ok e →
      Lin.WF e ∧ ∀ t, Lin.coef e t = toRat f *
        ∑ k ∈ Finset.range (N + 1), ((1 : ℚ) / k.factorial) • coefFun o cfg τ minr maxr t (nested (opVal H) (opVal T) k) := by
    intro n e hn h
    have hb := built_bch hH hT n
    have hcan : ∀ p ∈ OpExpr.bchSeries H T n, Canon p.2 := fun p hp => (built_wf hb).toOk.canon p hp
    have hev := mem_bch (H := H) (T := T) (Q := fun p => ∀ x ∈ p, EvenOp o x) (fun p hp x hx => hHx x ⟨p, hp, hx⟩)
      (fun q hq p hp => even_append (fun x hx => (hTx x ⟨q, hq, hx⟩).1) hp) n
    refine ⟨(contractExpr_spec hf hcan h).2.1, fun t => ?_⟩
    rw [coefFun_contract h8 hcg τ hcan hev hf h t, (C24_bch_series hH hT n).1, map_sum]
    congr 1
    symm
    rw [Finset.sum_congr rfl (fun k _ => map_smul _ _ _)]
    apply Finset.sum_subset
    · intro k hk
      rw [Finset.mem_range] at hk ⊢
      omega
    · intro k _ hk
      rw [Finset.mem_range] at hk
      rw [← nested_commutatorN hH hT k, commutatorN_zero h8 hp hH hN
        (fun C hC => by rw [(List.mem_replicate.1 hC).2]; exact ⟨hT, hT1⟩) hHx
        (fun C hC => by rw [(List.mem_replicate.1 hC).2]; exact hTx)
        (fun C hC C' hC' => by rw [(List.mem_replicate.1 hC).2, (List.mem_replicate.1 hC').2]; exact hTT)
        (by rw [List.length_replicate]; omega) hτ, smul_zero]
  obtain ⟨w, c⟩ := key hn h
  obtain ⟨w', c'⟩ := key hm h'
  exact (isEqual_iff w w').2 (fun t => (c t).trans (c' t).symm)

/-! ### concrete cases -/

/-- the hypotheses hold for `linkH` and `linkT` with `N = 2`, and the series of orders 2 and 3 contract to expressions that are not empty -/
example : OnlyPairs exSR ∧ Built linkH ∧ AtMostOps 2 linkH ∧ Built linkT ∧ SingleOps linkT ∧ (∀ x, OpsOf linkH x → EvenOp exSR x) ∧
    (∀ x, OpsOf linkT x → EvenOp exSR x ∧ ¬ OpsOf linkH x) ∧ (∀ x y, OpsOf linkT x → OpsOf linkT y → NeverContract exSR x y) ∧
    (∃ e e', contractExpr exSR {} (Rational.ofInt 1) (OpExpr.bchSeries linkH linkT 2) 0 0 = .ok e ∧
      contractExpr exSR {} (Rational.ofInt 1) (OpExpr.bchSeries linkH linkT 3) 0 0 = .ok e' ∧ e ≠ [] ∧ e' ≠ []) := by
  refine ⟨?_, oneProd_built _, ?_, oneProd_built _, fun p hp => ⟨_, mem_oneProd hp⟩, ?_, ?_, ?_, ?_⟩
  · intro s hs
    have : s < 2 := hs
    interval_cases s
    · left; rfl
    · right; rfl
  · intro p hp
    rw [mem_oneProd hp]; decide +kernel
  · intro x hx
    have := oneProd_ops hx
    rw [List.mem_singleton] at this; subst this
    exact ⟨mkOp_valid _ _ _ (by decide) (by decide), by decide +kernel⟩
  · intro x hx
    have := oneProd_ops hx
    rw [List.mem_singleton] at this; subst this
    refine ⟨⟨mkOp_valid _ _ _ (by decide) (by decide), by decide +kernel⟩, ?_⟩
    intro h
    have := oneProd_ops h
    rw [List.mem_singleton] at this
    revert this; decide +kernel
  · intro x y hx hy
    have := oneProd_ops hx
    rw [List.mem_singleton] at this; subst this
    have := oneProd_ops hy
    rw [List.mem_singleton] at this; subst this
    intro s hs
    have : s < 2 := hs
    interval_cases s <;> decide +kernel
  · obtain ⟨e, he, h⟩ := ok_of_check (x := contractExpr exSR {} (Rational.ofInt 1) (OpExpr.bchSeries linkH linkT 2) 0 0)
      (fun e => decide (e.length ≠ 0)) (by decide +kernel)
    obtain ⟨e', he', h'⟩ := ok_of_check (x := contractExpr exSR {} (Rational.ofInt 1) (OpExpr.bchSeries linkH linkT 3) 0 0)
      (fun e => decide (e.length ≠ 0)) (by decide +kernel)
    refine ⟨e, e', he, he', ?_, ?_⟩
    · intro h0; rw [h0] at h; exact absurd h (by decide)
    · intro h0; rw [h0] at h'; exact absurd h' (by decide)

/-- the bound cannot be lowered: with as many factors as `H` has second-quantized operators the commutator does not vanish -/
theorem C73_bound_sharp : AtMostOps 2 linkH ∧
    ∃ e, contractExpr exSR {} (Rational.ofInt 1) (OpExpr.commutatorN [linkH, linkT, linkT]) 0 4 = .ok e ∧ e ≠ [] := by
  refine ⟨fun p hp => by rw [mem_oneProd hp]; decide +kernel, ?_⟩
  obtain ⟨e, he, h⟩ := ok_of_check (x := contractExpr exSR {} (Rational.ofInt 1) (OpExpr.commutatorN [linkH, linkT, linkT]) 0 4)
      (fun e => decide (e.length ≠ 0)) (by decide +kernel)
  exact ⟨e, he, fun h0 => by rw [h0] at h; exact absurd h (by decide)⟩

/-- operators that can be contracted with one another (as in unitary coupled cluster) do not end the series: `[[[h, t], u], t]` with
an excitation `t` and a de-excitation `u` does not vanish -/
theorem C73_contracting_T_does_not_end : AtMostOps 2 linkH ∧
    ∃ e, contractExpr exSR {} (Rational.ofInt 1) (OpExpr.commutatorN
      [linkH, linkT, oneProd [mkOp "u" [(1, 0), (0, 1)]], linkT]) 0 0 = .ok e ∧ e ≠ [] := by
  refine ⟨fun p hp => by rw [mem_oneProd hp]; decide +kernel, ?_⟩
  obtain ⟨e, he, h⟩ := ok_of_check (x := contractExpr exSR {} (Rational.ofInt 1) (OpExpr.commutatorN
      [linkH, linkT, oneProd [mkOp "u" [(1, 0), (0, 1)]], linkT]) 0 0)
      (fun e => decide (e.length ≠ 0)) (by decide +kernel)
  exact ⟨e, he, fun h0 => by rw [h0] at h; exact absurd h (by decide)⟩

end Wick
end Wicked
