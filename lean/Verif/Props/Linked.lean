import Verif.Proofs.LinkAlg
import Verif.Proofs.LinkTerm
import Verif.Props.WickSum
/-! # C69: the linked-diagram theorem

Nested commutators `[[H,T₁],...]` and `bch_series(H,T,n)` contract to linked terms: every tensor is connected,
through common indices, to a tensor of an operator of `H`. -/
namespace Wicked
open CppLt CppEq Rational Lin
namespace Wick

theorem eval_congr' {κ : Type _} [CppLt κ] [StrictWeak κ] {M : Type _} [AddCommGroup M] [Module ℚ M] {φ ψ : κ → M} {E : Lin κ} (h : ∀ p ∈ E, φ p.1 = ψ p.1) :
    Lin.eval φ E = Lin.eval ψ E := by
  induction E with
  | nil => simp [Lin.eval]
  | cons p E ih => rw [eval_cons, eval_cons, ih (fun q hq => h q (by simp [hq])), h p (by simp)]

theorem eval_ne_zero {κ : Type _} [CppLt κ] [StrictWeak κ] {φ : κ → ℚ} {E : Lin κ} (h : Lin.eval φ E ≠ 0) : ∃ p ∈ E, φ p.1 ≠ 0 := by
  by_contra hc
  push Not at hc
  apply h
  have : Lin.eval φ E = Lin.eval (fun _ => (0 : ℚ)) E := eval_congr' hc
  rw [this]
  clear h hc this
  induction E with
  | nil => simp [Lin.eval]
  | cons p E ih => rw [eval_cons, ih]; simp

/-- where a term of a contracted expression without split parts comes from -/
theorem linked_source {o : OSI} {cfg : WickCfg} (h8 : o.spaces.length ≤ 8) (hcg : cfg.canonGraph = true) {τ : Operator → Bool} {E : OpExpr}
    (hE : ∀ p ∈ E, Canon p.2) (hv : ∀ p ∈ E, ∀ x ∈ p.1, x.Valid o.spaces.length) (hev : ∀ p ∈ E, AllEven p.1)
    (hprim : Prim τ (opVal E)) {f : Rational} (hf : Canon f) {minr maxr : Int} {e : Expr}
    (h : contractExpr o cfg f E minr maxr = .ok e) {q : STerm × Rational} (hq : q ∈ e) :
    ∃ p ∈ E, ∃ cs r, EvalList o p.1 cs ∧ (∀ i < p.1.length, ¬ Isolated τ o.spaces.length p.1 cs i) ∧
      processOne o cfg p.1 cs (Rational.ofInt 1) = .ok r ∧ eqv r.1 q.1 = true := by
  classical
  obtain ⟨hu, hwf, hcoef⟩ := contractExpr_spec hf hE h
  have hne : Lin.coef e q.1 ≠ 0 := by
    rw [coef_of_mem hwf.toOk hq]
    exact hwf.nonzero q hq
  rw [hcoef q.1] at hne
  have hne := right_ne_zero_of_mul hne
  have e1 : Lin.eval (coefOf o cfg minr maxr q.1) E =
      Lin.eval (fun p => ((allowedMasks τ p).map (fun m => phi o cfg τ minr maxr q.1 (sel true m p) (sel false m p))).sum) E := by
    apply eval_congr'
    intro p hp
    obtain ⟨rs, hrs⟩ := hu p hp
    unfold coefOf
    rw [hrs]
    exact ucoef_split h8 hcg τ (hv p hp) (hev p hp) hrs q.1
  rw [e1, ← pairing_delta (fun u v => phi o cfg τ minr maxr q.1 u v), hprim, pairing_inr] at hne
  obtain ⟨p, hp, hphi⟩ := eval_ne_zero hne
  unfold phi at hphi
  obtain ⟨μ, hμ, hc⟩ := Finset.exists_ne_zero_of_sum_ne_zero hphi
  rw [Finset.mem_filter] at hμ
  obtain ⟨hμ1, hμ2⟩ := hμ
  simp only [List.nil_append, List.length_nil, List.replicate_zero] at hμ1 hμ2 hc
  have hcomp := (mem_compM h8 (hv p hp) minr maxr μ).1 hμ1
  unfold contrib at hc
  cases hr : processOne o cfg p.1 μ.toList (Rational.ofInt 1) with
  | error x => rw [hr] at hc; exact absurd rfl hc
  | ok r =>
    rw [hr] at hc
    simp only at hc
    refine ⟨p, hp, μ.toList, r, hcomp.evalList, ?_, hr, ?_⟩
    · intro i hi hI
      have := (mask_getD hi).2 hI
      rw [hμ2] at this
      simp [List.getD_eq_getElem?_getD, hi] at this
    · by_contra hcon
      rw [if_neg hcon] at hc
      exact hc rfl

/-! ### the products in commutators -/

theorem mem_commutator {Q : OperatorProduct → Prop} {A B : OpExpr} (h : ∀ p ∈ A, ∀ q ∈ B, Q (p.1 ++ q.1) ∧ Q (q.1 ++ p.1)) :
    ∀ r ∈ OpExpr.commutator A B, Q r.1 := by
  have hm : ∀ {X Y : OpExpr}, (∀ p ∈ X, ∀ q ∈ Y, Q (p.1 ++ q.1)) → ∀ r ∈ OpExpr.mul X Y, Q r.1 := by
    intro X Y hXY
    unfold OpExpr.mul
    rw [mul_eq_fold]
    refine mem_fold_add Q _ _ _ [] (by simp) ?_
    intro b hb
    obtain ⟨p, hp, hb⟩ := List.mem_flatMap.1 hb
    obtain ⟨q, hq, rfl⟩ := List.mem_map.1 hb
    exact hXY p hp q hq
  unfold OpExpr.commutator OpExpr.minus Lin.minus
  refine mem_fold_add Q (fun p : OperatorProduct × Rational => p.1) _ _ _ (hm (fun p hp q hq => (h p hp q hq).1)) ?_
  exact hm (fun p hp q hq => (h q hq p hp).2)

theorem mem_foldl_commutator {Q : OperatorProduct → Prop} {Ts : List OpExpr}
    (hQ : ∀ T ∈ Ts, ∀ q ∈ T, ∀ p, Q p → Q (p ++ q.1) ∧ Q (q.1 ++ p)) {A : OpExpr} (hA : ∀ p ∈ A, Q p.1) :
    ∀ r ∈ Ts.foldl OpExpr.commutator A, Q r.1 := by
  induction Ts generalizing A with
  | nil => exact hA
  | cons T Ts ih =>
    exact ih (fun T' hT' => hQ T' (by simp [hT'])) (mem_commutator (fun p hp q hq => hQ T (by simp) q hq p.1 (hA p hp)))

theorem mem_bchLoop {Q : OperatorProduct → Prop} {T : OpExpr}
    (hQ : ∀ q ∈ T, ∀ p, Q p → Q (p ++ q.1) ∧ Q (q.1 ++ p)) : ∀ (n k : Nat) (A B : OpExpr), (∀ p ∈ A, Q p.1) → (∀ p ∈ B, Q p.1) →
    ∀ r ∈ OpExpr.bchLoop T k n A B, Q r.1 := by
  intro n
  induction n with
  | zero => intro k A B hA _; exact hA
  | succ n ih =>
    intro k A B hA hB
    have hc : ∀ r ∈ Lin.smul (OpExpr.commutator B T) (Rational.mk2 1 ((k + 1 : Nat) : Int)), Q r.1 := by
      intro r hr
      obtain ⟨s, hs, rfl⟩ := List.mem_map.1 hr
      exact mem_commutator (fun p hp q hq => hQ q hq p.1 (hB p hp)) s hs
    refine ih (k + 1) _ _ ?_ hc
    unfold OpExpr.plus Lin.plus
    exact mem_fold_add Q (fun p : OperatorProduct × Rational => p.1) _ _ _ hA hc

theorem mem_bch {Q : OperatorProduct → Prop} {H T : OpExpr} (hH : ∀ p ∈ H, Q p.1)
    (hQ : ∀ q ∈ T, ∀ p, Q p → Q (p ++ q.1) ∧ Q (q.1 ++ p)) (n : Int) : ∀ r ∈ OpExpr.bchSeries H T n, Q r.1 := by
  refine mem_bchLoop hQ _ _ _ _ ?_ hH
  unfold OpExpr.plus Lin.plus
  exact mem_fold_add Q (fun p : OperatorProduct × Rational => p.1) _ _ _ (by simp) hH

section
variable {o : OSI} {cfg : WickCfg} (h8 : o.spaces.length ≤ 8) (hcg : cfg.canonGraph = true)
include h8 hcg

theorem linked_of_prim {H E : OpExpr} (hE : ∀ p ∈ E, Canon p.2) (hx : ∀ p ∈ E, ∀ x ∈ p.1, EvenOp o x)
    (τ : Operator → Bool) (hτ : ∀ x, τ x = false → LabelsOf H x.label) (hprim : Prim τ (opVal E))
    {f : Rational} (hf : Canon f) {minr maxr : Int} {e : Expr}
    (h : contractExpr o cfg f E minr maxr = .ok e) {q : STerm × Rational} (hq : q ∈ e) : q.1.LinkedTo (LabelsOf H) := by
  obtain ⟨p, hp, cs, r, hL, hI, hr, he⟩ := linked_source h8 hcg hE (fun p hp x hh => (hx p hp x hh).valid)
    (fun p hp x hh => (hx p hp x hh).even) hprim hf h hq
  exact LinkedList.of_eqv he (processOne_linked h8 (fun x hh => (hx p hp x hh).valid) hL (fun x _ h => hτ x h) hI hr)

theorem connected_of_prim {E : OpExpr} (hE : ∀ p ∈ E, Canon p.2) (hx : ∀ p ∈ E, ∀ x ∈ p.1, EvenOp o x)
    (τ : Operator → Bool) (hτ : ∀ p ∈ E, p.1.countP (fun x => !τ x) = 1) (hprim : Prim τ (opVal E))
    {f : Rational} (hf : Canon f) {minr maxr : Int} {e : Expr}
    (h : contractExpr o cfg f E minr maxr = .ok e) {q : STerm × Rational} (hq : q ∈ e) : q.1.Connected := by
  obtain ⟨p, hp, cs, r, hL, hI, hr, he⟩ := linked_source h8 hcg hE (fun p hp x hh => (hx p hp x hh).valid)
    (fun p hp x hh => (hx p hp x hh).even) hprim hf h hq
  exact (CenteredList.of_eqv he (processOne_centered h8 (fun x hh => (hx p hp x hh).valid) hL (hτ p hp) hI hr)).connected

end

theorem tau_labels (H : OpExpr) : ∃ τ : Operator → Bool, ∀ x, τ x = false ↔ LabelsOf H x.label := by
  classical
  exact ⟨fun x => decide (¬ LabelsOf H x.label), fun x => by simp⟩

theorem tau_ops (H : OpExpr) : ∃ τ : Operator → Bool, ∀ x, τ x = false ↔ OpsOf H x := by
  classical
  exact ⟨fun x => decide (¬ OpsOf H x), fun x => by simp⟩

theorem even_append {o : OSI} {q : OperatorProduct} (hq : ∀ x ∈ q, EvenOp o x) {p : OperatorProduct} (hp : ∀ x ∈ p, EvenOp o x) :
    (∀ x ∈ p ++ q, EvenOp o x) ∧ (∀ x ∈ q ++ p, EvenOp o x) := by
  constructor <;> intro x hx <;> rcases List.mem_append.1 hx with h | h
  · exact hp x h
  · exact hq x h
  · exact hq x h
  · exact hp x h

/-- **C69**, nested commutators: contracting `commutator(H, T₁, ..., Tₙ)`, where each `Tᵢ` is a linear combination of
single operators (`H` may contain products) and every operator has an even number of second-quantized operators, gives linked
terms only: every tensor of every term is connected through common indices to a tensor of an operator of `H`. For every rank window,
every prefactor and every cumulant limit. -/
theorem C69_commutator_linked {o : OSI} {cfg : WickCfg} (h8 : o.spaces.length ≤ 8) (hcg : cfg.canonGraph = true)
    {H : OpExpr} {Ts : List OpExpr} (hH : Built H) (hT : ∀ T ∈ Ts, Built T ∧ SingleOps T)
    (hHx : ∀ x, OpsOf H x → EvenOp o x) (hTx : ∀ T ∈ Ts, ∀ x, OpsOf T x → EvenOp o x)
    {f : Rational} (hf : Canon f) {minr maxr : Int} {e : Expr}
    (h : contractExpr o cfg f (OpExpr.commutatorN (H :: Ts)) minr maxr = .ok e) :
    ∀ q ∈ e, q.1.LinkedTo (LabelsOf H) := by
  intro q hq
  obtain ⟨τ, hτ⟩ := tau_labels H
  have hb : Built (OpExpr.commutatorN (H :: Ts)) := by
    show Built (Ts.foldl OpExpr.commutator H)
    clear h hτ hTx hHx
    induction Ts generalizing H with
    | nil => exact hH
    | cons T Ts ih => exact ih (built_commutator hH (hT T (by simp)).1) (fun T' h' => hT T' (by simp [h']))
  refine linked_of_prim h8 hcg (fun p hp => (built_wf hb).toOk.canon p hp) ?_ τ (fun x => (hτ x).1) ?_ hf h hq
  · exact mem_foldl_commutator (Q := fun p => ∀ x ∈ p, EvenOp o x)
      (fun T hT q hq p hp => even_append (fun x hx => hTx T hT x ⟨q, hq, hx⟩) hp) (fun p hp x hx => hHx x ⟨p, hp, hx⟩)
  · rw [C23_nested hH Ts (fun B hB => (hT B hB).1)]
    exact prim_foldl (fun T hTm => split_expr (hT T hTm).2) (prim_expr (fun p hp x hx => (hτ x).2 ⟨x, ⟨p, hp, hx⟩, rfl⟩))

/-- **C69**, Baker-Campbell-Hausdorff series: the same for `bch_series(H, T, n)`, for every `n`. -/
theorem C69_bch_linked {o : OSI} {cfg : WickCfg} (h8 : o.spaces.length ≤ 8) (hcg : cfg.canonGraph = true)
    {H T : OpExpr} (hH : Built H) (hT : Built T) (hT1 : SingleOps T)
    (hHx : ∀ x, OpsOf H x → EvenOp o x) (hTx : ∀ x, OpsOf T x → EvenOp o x) (n : Int)
    {f : Rational} (hf : Canon f) {minr maxr : Int} {e : Expr}
    (h : contractExpr o cfg f (OpExpr.bchSeries H T n) minr maxr = .ok e) :
    ∀ q ∈ e, q.1.LinkedTo (LabelsOf H) := by
  intro q hq
  obtain ⟨τ, hτ⟩ := tau_labels H
  have hb : Built (OpExpr.bchSeries H T n) := (bchLoop_spec hT (opVal H) n.toNat 0 (OpExpr.plus [] H) H (.plus .empty hH) hH
    (by simp [nested]) (by
      have : opVal (OpExpr.plus [] H) = opVal H := by
        rw [opVal_plus ok_nil (built_wf hH).toOk, opVal_nil, zero_add]
      rw [this]; simp [nested])).1
  refine linked_of_prim h8 hcg (fun p hp => (built_wf hb).toOk.canon p hp) ?_ τ (fun x => (hτ x).1) ?_ hf h hq
  · exact mem_bch (Q := fun p => ∀ x ∈ p, EvenOp o x) (fun p hp x hx => hHx x ⟨p, hp, hx⟩)
      (fun q hq p hp => even_append (fun x hx => hTx x ⟨q, hq, hx⟩) hp) n
  · rw [(C24_bch_series hH hT n).1]
    exact prim_bch (prim_expr (fun p hp x hx => (hτ x).2 ⟨x, ⟨p, hp, hx⟩, rfl⟩)) (split_expr hT1) _

/-- each product has exactly one operator of `H` -/
theorem count_single {τ : Operator → Bool} {q : OperatorProduct × Rational} {x : Operator} (hq : q.1 = [x]) (hx : τ x = true) {p : OperatorProduct}
    (hp : p.countP (fun x => !τ x) = 1) : (p ++ q.1).countP (fun x => !τ x) = 1 ∧ (q.1 ++ p).countP (fun x => !τ x) = 1 := by
  rw [hq, List.countP_append, List.countP_append, hp]
  simp [hx]

/-- **C69**, connected diagrams: if `H` is a linear combination of single operators too, and no operator of it occurs in the
`Tᵢ`, then every term of the contracted nested commutator is connected: any two tensors of it are connected through common indices. -/
theorem C69_commutator_connected {o : OSI} {cfg : WickCfg} (h8 : o.spaces.length ≤ 8) (hcg : cfg.canonGraph = true)
    {H : OpExpr} {Ts : List OpExpr} (hH : Built H) (hH1 : SingleOps H) (hT : ∀ T ∈ Ts, Built T ∧ SingleOps T)
    (hHx : ∀ x, OpsOf H x → EvenOp o x) (hTx : ∀ T ∈ Ts, ∀ x, OpsOf T x → EvenOp o x ∧ ¬ OpsOf H x)
    {f : Rational} (hf : Canon f) {minr maxr : Int} {e : Expr}
    (h : contractExpr o cfg f (OpExpr.commutatorN (H :: Ts)) minr maxr = .ok e) :
    ∀ q ∈ e, q.1.Connected := by
  intro q hq
  obtain ⟨τ, hτ⟩ := tau_ops H
  have hb : Built (OpExpr.commutatorN (H :: Ts)) := by
    show Built (Ts.foldl OpExpr.commutator H)
    clear h hτ hTx hHx hH1
    induction Ts generalizing H with
    | nil => exact hH
    | cons T Ts ih => exact ih (built_commutator hH (hT T (by simp)).1) (fun T' h' => hT T' (by simp [h']))
  have hfalse : ∀ p ∈ H, ∀ x ∈ p.1, τ x = false := fun p hp x hx => (hτ x).2 ⟨p, hp, hx⟩
  have hall := mem_foldl_commutator (Ts := Ts) (A := H) (Q := fun p => (∀ x ∈ p, EvenOp o x) ∧ p.countP (fun x => !τ x) = 1)
      (fun T hTm q hq p hp => by
        obtain ⟨x, hx⟩ := (hT T hTm).2 q hq
        have hxT : OpsOf T x := ⟨q, hq, by rw [hx]; simp⟩
        have hxt : τ x = true := by
          by_contra hc
          exact (hTx T hTm x hxT).2 ((hτ x).1 (by simpa using hc))
        have h1 := even_append (o := o) (q := q.1) (fun y hy => (hTx T hTm y ⟨q, hq, hy⟩).1) hp.1
        have h2 := count_single hx hxt hp.2
        exact ⟨⟨h1.1, h2.1⟩, ⟨h1.2, h2.2⟩⟩)
      (fun p hp => ⟨fun x hx => hHx x ⟨p, hp, hx⟩, by
        obtain ⟨x, hx⟩ := hH1 p hp
        have := hfalse p hp x (by rw [hx]; simp)
        rw [hx]; simp [this]⟩)
  refine connected_of_prim h8 hcg (fun p hp => (built_wf hb).toOk.canon p hp) (fun p hp => (hall p hp).1) τ (fun p hp => (hall p hp).2) ?_ hf h hq
  rw [C23_nested hH Ts (fun B hB => (hT B hB).1)]
  exact prim_foldl (fun T hTm => split_expr (hT T hTm).2) (prim_expr hfalse)

/-- **C69**, connected diagrams in the Baker-Campbell-Hausdorff series: the connected-cluster theorem -/
theorem C69_bch_connected {o : OSI} {cfg : WickCfg} (h8 : o.spaces.length ≤ 8) (hcg : cfg.canonGraph = true)
    {H T : OpExpr} (hH : Built H) (hH1 : SingleOps H) (hT : Built T) (hT1 : SingleOps T)
    (hHx : ∀ x, OpsOf H x → EvenOp o x) (hTx : ∀ x, OpsOf T x → EvenOp o x ∧ ¬ OpsOf H x) (n : Int)
    {f : Rational} (hf : Canon f) {minr maxr : Int} {e : Expr}
    (h : contractExpr o cfg f (OpExpr.bchSeries H T n) minr maxr = .ok e) :
    ∀ q ∈ e, q.1.Connected := by
  intro q hq
  obtain ⟨τ, hτ⟩ := tau_ops H
  have hb : Built (OpExpr.bchSeries H T n) := (bchLoop_spec hT (opVal H) n.toNat 0 (OpExpr.plus [] H) H (.plus .empty hH) hH
    (by simp [nested]) (by
      have : opVal (OpExpr.plus [] H) = opVal H := by
        rw [opVal_plus ok_nil (built_wf hH).toOk, opVal_nil, zero_add]
      rw [this]; simp [nested])).1
  have hfalse : ∀ p ∈ H, ∀ x ∈ p.1, τ x = false := fun p hp x hx => (hτ x).2 ⟨p, hp, hx⟩
  have hall := mem_bch (H := H) (T := T) (Q := fun p => (∀ x ∈ p, EvenOp o x) ∧ p.countP (fun x => !τ x) = 1)
      (fun p hp => ⟨fun x hx => hHx x ⟨p, hp, hx⟩, by
        obtain ⟨x, hx⟩ := hH1 p hp
        have := hfalse p hp x (by rw [hx]; simp)
        rw [hx]; simp [this]⟩)
      (fun q hq p hp => by
        obtain ⟨x, hx⟩ := hT1 q hq
        have hxT : OpsOf T x := ⟨q, hq, by rw [hx]; simp⟩
        have hxt : τ x = true := by
          by_contra hc
          exact (hTx x hxT).2 ((hτ x).1 (by simpa using hc))
        have h1 := even_append (o := o) (q := q.1) (fun y hy => (hTx y ⟨q, hq, hy⟩).1) hp.1
        have h2 := count_single hx hxt hp.2
        exact ⟨⟨h1.1, h2.1⟩, ⟨h1.2, h2.2⟩⟩) n
  refine connected_of_prim h8 hcg (fun p hp => (built_wf hb).toOk.canon p hp) (fun p hp => (hall p hp).1) τ (fun p hp => (hall p hp).2) ?_ hf h hq
  rw [(C24_bch_series hH hT n).1]
  exact prim_bch (prim_expr hfalse) (split_expr hT1) _

/-! ### concrete cases -/

theorem ok_of_check {α : Type _} {x : Except Fault α} (f : α → Bool) (h : (match x with | .ok e => f e | .error _ => false) = true) :
    ∃ e, x = .ok e ∧ f e = true := by
  cases x with
  | error _ => cases h
  | ok e => exact ⟨e, rfl, h⟩

/-- one product with coefficient 1 -/
def oneProd (p : OperatorProduct) : OpExpr := Lin.add [] p (Rational.mk2 1 1)

theorem oneProd_built (p : OperatorProduct) : Built (oneProd p) := .add p 1 1 (by decide) .empty

theorem mem_oneProd {p : OperatorProduct} {q : OperatorProduct × Rational} (h : q ∈ oneProd p) : q.1 = p := by
  rcases mem_add h with h | ⟨_, h, _⟩
  · exact h
  · cases h

theorem oneProd_ops {p : OperatorProduct} {x : Operator} (h : OpsOf (oneProd p) x) : x ∈ p := by
  obtain ⟨q, hq, hx⟩ := h
  rw [mem_oneProd hq] at hx; exact hx

/-- `h` takes a virtual orbital to an occupied one, `t` an occupied orbital to a virtual one -/
def linkH : OpExpr := oneProd [mkOp "h" [(1, 0), (0, 1)]]
def linkT : OpExpr := oneProd [mkOp "t" [(0, 1), (1, 0)]]

/-- the hypotheses of the theorems hold for `linkH`, `linkT`, and the results have 5 and 4 terms, among them a connected one with
three tensors -/
example : Built linkH ∧ Built linkT ∧ SingleOps linkH ∧ SingleOps linkT ∧ (∀ x, OpsOf linkH x → EvenOp exSR x) ∧
    (∀ x, OpsOf linkT x → EvenOp exSR x ∧ ¬ OpsOf linkH x) ∧
    (∃ e, contractExpr exSR {} (Rational.ofInt 1) (OpExpr.bchSeries linkH linkT 2) 0 4 = .ok e ∧ e.length = 5 ∧ ∃ q ∈ e, q.1.tensors.length = 3) ∧
    (∃ e, contractExpr exSR {} (Rational.ofInt 1) (OpExpr.commutatorN [linkH, linkT]) 0 4 = .ok e ∧ e.length = 3) := by
  refine ⟨oneProd_built _, oneProd_built _, fun p hp => ⟨_, mem_oneProd hp⟩, fun p hp => ⟨_, mem_oneProd hp⟩, ?_, ?_, ?_, ?_⟩
  · intro x hx
    have := oneProd_ops hx
    rw [List.mem_singleton] at this; subst this
    exact ⟨mkOp_valid _ _ _ (by decide) (by decide), by decide +kernel⟩
  · intro x hx
    have := oneProd_ops hx
    rw [List.mem_singleton] at this; subst this
    refine ⟨⟨mkOp_valid _ _ _ (by decide) (by decide), by decide +kernel⟩, ?_⟩
    intro h
    have := oneProd_ops h
    rw [List.mem_singleton] at this
    revert this; decide +kernel
  · obtain ⟨e, he, h⟩ := ok_of_check (x := contractExpr exSR {} (Rational.ofInt 1) (OpExpr.bchSeries linkH linkT 2) 0 4)
      (fun e => decide (e.length = 5 ∧ ∃ q ∈ e, q.1.tensors.length = 3)) (by decide +kernel)
    exact ⟨e, he, by simpa using h⟩
  · obtain ⟨e, he, h⟩ := ok_of_check (x := contractExpr exSR {} (Rational.ofInt 1) (OpExpr.commutatorN [linkH, linkT]) 0 4)
      (fun e => decide (e.length = 3)) (by decide +kernel)
    exact ⟨e, he, by simpa using h⟩

theorem not_linked {P : Str → Prop} {ts : List Tensor} {x : Tensor} (hx : x ∈ ts) (hs : ∀ c ∈ ts, x.Shares c → c = x) (hP : ¬ P x.label) :
    ¬ LinkedList P ts := by
  intro h
  obtain ⟨y, hyt, hy, hp⟩ := h x hx
  have : y = x := by
    clear hy hyt
    induction hp with
    | refl => rfl
    | @tail b c _ hbc ih => subst ih; exact hs c hbc.1 hbc.2
  subst this
  exact hP hy

instance decShares (x y : Tensor) : Decidable (x.Shares y) :=
  decidable_of_iff ((x.lower ++ x.upper).any (fun i => decide (i ∈ y.lower ++ y.upper)) = true) (by
    rw [List.any_eq_true]
    unfold Tensor.Shares
    constructor
    · rintro ⟨i, h1, h2⟩; exact ⟨i, h1, by simpa using h2⟩
    · rintro ⟨i, h1, h2⟩; exact ⟨i, h1, by simpa using h2⟩)

/-- some term has a tensor with another label that shares no index with the other tensors -/
def hasUnlinked (L : List Str) (e : Expr) : Bool :=
  e.any (fun q => q.1.tensors.any (fun x => !decide (x.label ∈ L) && q.1.tensors.all (fun c => !decide (x.Shares c) || decide (c = x))))

/-- a term that is not linked, found by computation -/
theorem unlinked_witness {r : Except Fault Expr} {L : List Str} {H : OpExpr} (hL : ∀ l, LabelsOf H l → l ∈ L)
    (h : (match r with
      | .ok e => hasUnlinked L e
      | .error _ => false) = true) :
    ∃ e, r = .ok e ∧ ∃ q ∈ e, ¬ q.1.LinkedTo (LabelsOf H) := by
  obtain ⟨e, he, h⟩ := ok_of_check (x := r) (hasUnlinked L) (by cases r <;> exact h)
  refine ⟨e, he, ?_⟩
  obtain ⟨q, hq, h⟩ := List.any_eq_true.1 h
  obtain ⟨x, hx, h⟩ := List.any_eq_true.1 h
  rw [Bool.and_eq_true] at h
  refine ⟨q, hq, not_linked hx ?_ ?_⟩
  · intro c hc hs
    have := List.all_eq_true.1 h.2 c hc
    simpa [hs] using this
  · intro hP
    have := hL _ hP
    simp [this] at h

theorem labels_one {p : OperatorProduct} {l : Str} (h : LabelsOf (oneProd p) l) : l ∈ p.map Operator.label := by
  obtain ⟨x, hx, rfl⟩ := h
  exact List.mem_map_of_mem (oneProd_ops hx)

/-- the commutator is needed: the plain product `H T` contracts to an unlinked term as well -/
theorem C69_product_unlinked : ∃ e, contractExpr exSR {} (Rational.ofInt 1) (OpExpr.mul linkH linkT) 0 4 = .ok e ∧
    ∃ q ∈ e, ¬ q.1.LinkedTo (LabelsOf linkH) := by
  refine unlinked_witness (L := ["h".toList]) (fun l hl => labels_one hl) ?_
  decide +kernel

/-- an even number of second-quantized operators is needed: the commutator of two odd operators contracts to an unlinked term -/
theorem C69_odd_unlinked : ∃ e, contractExpr exSR {} (Rational.ofInt 1)
      (OpExpr.commutatorN [oneProd [mkOp "h" [(1, 0)]], oneProd [mkOp "t" [(0, 0), (1, 0)]]]) 0 2 = .ok e ∧
    ∃ q ∈ e, ¬ q.1.LinkedTo (LabelsOf (oneProd [mkOp "h" [(1, 0)]])) := by
  refine unlinked_witness (L := ["h".toList]) (fun l hl => labels_one hl) ?_
  decide +kernel

/-- single operators are needed: the commutator with a product `t u` contracts to a term in which `t` is not linked -/
theorem C69_pair_unlinked : ∃ e, contractExpr exSR {} (Rational.ofInt 1)
      (OpExpr.commutatorN [linkH, oneProd [mkOp "t" [(0, 1), (1, 0)], mkOp "u" [(0, 1), (1, 0)]]]) 0 2 = .ok e ∧
    ∃ q ∈ e, ¬ q.1.LinkedTo (LabelsOf linkH) := by
  refine unlinked_witness (L := ["h".toList]) (fun l hl => labels_one hl) ?_
  decide +kernel

end Wick
end Wicked
