import Verif.Spec.Fock
import Verif.Proofs.Vno
import Verif.Props.Algebra
import Mathlib.Data.Matrix.Basic
import Mathlib.LinearAlgebra.Matrix.Notation
/-! # C26-C29: vacuum normal ordering -/
namespace Wicked
open CppLt CppEq Rational Lin

theorem vno_term {o : OSI} {s : Bool} {t : STerm} (hr : t.OpsRegistered o) (hf : t.normalOrdered = false) :
    ∃ r, t.vacuumNormalOrder o s = .ok r ∧ ∀ p ∈ r, VnoGood o p.1 ∧ Canon p.2 :=
  vnoAux_good _ t _ (by have := inv_le t.ops; unfold STerm.vnoFuel; omega) hr hf (canon_ofInt 1)

/-- the fold of expression_normal_order.cc:26-31 -/
def vnoFold (o : OSI) (s : Bool) (e : Expr) (r : Expr) : Res Expr :=
  e.foldlM (fun r p => do
    let l ← STerm.vacuumNormalOrder o s p.1
    return l.foldl (fun r q => Lin.add r q.1 (Rational.mul p.2 q.2)) r) r

theorem vno_unfold {o : OSI} {s : Bool} {e : Expr} (h : Expr.Unlabelled e) :
    Expr.vacuumNormalOrdered o s e = vnoFold o s e [] := by
  unfold Expr.vacuumNormalOrdered
  rw [if_neg]; rfl
  intro hh
  obtain ⟨p, hp, h1⟩ := List.any_eq_true.1 hh
  rw [h p hp] at h1; cases h1

theorem vnoFold_cons {o : OSI} {s : Bool} {p : STerm × Rational} {e r : Expr} {l}
    (h : p.1.vacuumNormalOrder o s = .ok l) :
    vnoFold o s (p :: e) r = vnoFold o s e (l.foldl (fun r q => Lin.add r q.1 (Rational.mul p.2 q.2)) r) := by
  unfold vnoFold
  rw [List.foldlM_cons]
  simp only [h, bind, Except.bind]; rfl

theorem vnoFold_spec {o : OSI} {s : Bool} : ∀ (e r : Expr), Ok r → (∀ p ∈ e, Canon p.2) →
    (∀ p ∈ e, p.1.OpsRegistered o) → (∀ p ∈ e, p.1.normalOrdered = false) → (∀ p ∈ r, VnoGood o p.1) →
    ∃ r', vnoFold o s e r = .ok r' ∧ Ok r' ∧ (WF r → WF r') ∧ ∀ p ∈ r', VnoGood o p.1 := by
  intro e
  induction e with
  | nil => intro r hr _ _ _ hg; exact ⟨r, rfl, hr, id, hg⟩
  | cons p e ih =>
    intro r hr hc hreg hfl hg
    obtain ⟨l, hl, hlg⟩ := vno_term (s := s) (hreg p (List.mem_cons_self ..)) (hfl p (List.mem_cons_self ..))
    have hpc := hc p (List.mem_cons_self ..)
    obtain ⟨h1, h2, _⟩ := fold_add l Prod.fst (fun q => Rational.mul p.2 q.2) (fun q hq => canon_mul hpc (hlg q hq).2) r hr
    have hgl : ∀ q ∈ l, VnoGood o (Prod.fst q) := fun q hq => (hlg q hq).1
    have hg' := mem_fold_add (VnoGood o) (Prod.fst : STerm × Rational → STerm) (fun q => Rational.mul p.2 q.2) l r hg hgl
    obtain ⟨r', i1, i2, i3, i4⟩ := ih _ h1
      (fun q hq => hc q (List.mem_cons_of_mem _ hq)) (fun q hq => hreg q (List.mem_cons_of_mem _ hq))
      (fun q hq => hfl q (List.mem_cons_of_mem _ hq))
      hg'
    exact ⟨r', by rw [vnoFold_cons hl]; exact i1, i2, fun hw => i3 (h2 hw), i4⟩

section
variable {R A : Type _} [CommRing R] [Ring A] [Algebra R A] [Algebra ℚ A]

/-- a valuation does not distinguish terms that are `==` -/
theorem term_congr (v : Valuation R A) (a b : STerm) (h : eqv a b = true) : v.term a = v.term b := by
  rw [sterm_eqv] at h
  simp only [STerm.key, Prod.mk.injEq] at h
  unfold Valuation.term Valuation.tensors
  rw [h.2]
  congr 2
  have : ∀ l : List Tensor, (l.map (fun t => v.T t.label t.lower t.upper)) = (l.map Tensor.key).map (fun k => v.T k.1 k.2.1 k.2.2) := by
    intro l; rw [List.map_map]; rfl
  rw [this, this, h.1]

theorem vnoFold_value {v : Valuation R A} {o : OSI} {Orb : Type _} {orb : Index → Orb} (hv : v.CCR o orb) {s : Bool}
    (hs : s = true → ∀ i j : Index, i.space = j.space → orb i = orb j → i = j) :
    ∀ (e r r' : Expr), Ok r → (∀ p ∈ e, Canon p.2) → (∀ p ∈ e, p.1.OpsRegistered o) →
    (∀ p ∈ e, p.1.normalOrdered = false) → vnoFold o s e r = .ok r' →
    Lin.eval v.term r' = Lin.eval v.term r + Lin.eval v.term e := by
  intro e
  induction e with
  | nil => intro r r' _ _ _ _ h; cases h; rw [eval_nil, add_zero]
  | cons p e ih =>
    intro r r' hr hc hreg hfl h
    obtain ⟨l, hl, hlg⟩ := vno_term (s := s) (hreg p (List.mem_cons_self ..)) (hfl p (List.mem_cons_self ..))
    have hpc := hc p (List.mem_cons_self ..)
    have hlc : ∀ q ∈ l, Canon (Rational.mul p.2 q.2) := fun q hq => canon_mul hpc (hlg q hq).2
    obtain ⟨h1, _, _⟩ := fold_add l Prod.fst (fun q => Rational.mul p.2 q.2) hlc r hr
    rw [vnoFold_cons hl] at h
    rw [ih _ r' h1 (fun q hq => hc q (List.mem_cons_of_mem _ hq)) (fun q hq => hreg q (List.mem_cons_of_mem _ hq))
      (fun q hq => hfl q (List.mem_cons_of_mem _ hq)) h,
      eval_fold_add v.term (term_congr v) l Prod.fst (fun q => Rational.mul p.2 q.2) hlc r hr, eval_cons, add_assoc]
    congr 2
    have := vnoAux_value hv hs _ p.1 _ l (hreg p (List.mem_cons_self ..)) (canon_ofInt 1) hl
    rw [toRat_ofInt] at this
    simp only [Int.cast_one, one_smul] at this
    rw [← this, listVal, List.smul_sum, List.map_map]
    congr 1; apply List.map_congr_left; intro q _
    simp only [Function.comp, toRat_mul, mul_smul]

/-- **C26**: for every algebra over every commutative ring and every valuation satisfying the
canonical (anti)commutation relations, `vacuum_normal_ordered` returns an expression with the same
value; with `only_same_index_contractions` this holds when different indices of a space denote
different orbitals. -/
theorem C26_value_preserved (v : Valuation R A) (o : OSI) {Orb : Type _} (orb : Index → Orb) (hv : v.CCR o orb)
    (onlySame : Bool) (hs : onlySame = true → ∀ i j : Index, i.space = j.space → orb i = orb j → i = j)
    {e : Expr} (he : Ok e) (hr : e.OpsRegistered o) (hu : e.Unlabelled) :
    ∃ e', e.vacuumNormalOrdered o onlySame = .ok e' ∧ Lin.eval v.term e' = Lin.eval v.term e := by
  obtain ⟨r', h1, _⟩ := vnoFold_spec (s := onlySame) e [] ok_nil he.canon hr hu (by simp)
  refine ⟨r', by rw [vno_unfold hu]; exact h1, ?_⟩
  rw [vnoFold_value hv hs e [] r' ok_nil he.canon hr hu h1, eval_nil, zero_add]

end

/-! ### a concrete Fock space showing that the hypotheses of C26 are satisfiable -/

/-- one fermionic space `o` -/
def oneFermion : OSI := ⟨[⟨'o', .fermion, .occupied, [], []⟩], [('o', 0)], []⟩

/-- two-dimensional Fock space of a single orbital: all indices denote it -/
def singleOrbital : Valuation ℚ (Matrix (Fin 2) (Fin 2) ℚ) where
  T := fun l _ _ => if l = "delta".toList then 1 else 3
  cre := fun _ => !![0, 0; 1, 0]
  ann := fun _ => !![0, 1; 0, 0]

theorem singleOrbital_ccr : singleOrbital.CCR oneFermion (fun _ : Index => ()) := by
  have hsp : ∀ i : Index, i.Registered oneFermion → i.IsFermion oneFermion := by
    intro i h
    have h0 : i.space.toNat = 0 := by
      have := h.2; simp [oneFermion] at this; omega
    have : i.space = 0 := by have := h.1; omega
    unfold Index.IsFermion; rw [this]; rfl
  have hx : ∀ i j, i.Registered oneFermion → j.Registered oneFermion → exchSign oneFermion i j = -1 := by
    intro i j hi hj; rw [exchSign, if_pos ⟨hsp i hi, hsp j hj⟩]
  have hs : ∀ i j : Index, i.Registered oneFermion → j.Registered oneFermion → i.space = j.space := by
    intro i j hi hj
    have h1 := hi.1; have h2 := hj.1; have h3 := hi.2; have h4 := hj.2
    simp [oneFermion] at h3 h4; omega
  refine ⟨?_, ?_, ?_, ?_, ?_, ?_⟩
  · intro i j hi hj
    rw [hx i j hi hj]
    show (!![0, 0; 1, 0] : Matrix (Fin 2) (Fin 2) ℚ) * !![0, 0; 1, 0] = (-1 : ℚ) • (!![0, 0; 1, 0] * !![0, 0; 1, 0])
    ext a b; fin_cases a <;> fin_cases b <;> simp [Matrix.mul_apply, Fin.sum_univ_two]
  · intro i j hi hj
    rw [hx i j hi hj]
    show (!![0, 1; 0, 0] : Matrix (Fin 2) (Fin 2) ℚ) * !![0, 1; 0, 0] = (-1 : ℚ) • (!![0, 1; 0, 0] * !![0, 1; 0, 0])
    ext a b; fin_cases a <;> fin_cases b <;> simp [Matrix.mul_apply, Fin.sum_univ_two]
  · intro i j hi hj _ _
    rw [hx i j hi hj]
    show (!![0, 1; 0, 0] : Matrix (Fin 2) (Fin 2) ℚ) * !![0, 0; 1, 0] = (-1 : ℚ) • (!![0, 0; 1, 0] * !![0, 1; 0, 0]) + 1
    ext a b; fin_cases a <;> fin_cases b <;> simp [Matrix.mul_apply, Fin.sum_univ_two]
  · intro i j hi hj h
    exact absurd ⟨hs i j hi hj, rfl⟩ h
  · intro i j _; simp [singleOrbital]
  · intro i j h; exact absurd rfl h

/-- `t^{o0}_{o1} a(o0) a+(o1)`: not normal ordered -/
def vnoExample : Expr := [(⟨false, [⟨.annihilation, ⟨0, 0⟩⟩, ⟨.creation, ⟨0, 1⟩⟩],
  [⟨"t".toList, [⟨0, 1⟩], [⟨0, 0⟩], .antisymmetric, false⟩]⟩, Rational.mk2 1 2)]

example : Ok vnoExample ∧ vnoExample.OpsRegistered oneFermion ∧ vnoExample.Unlabelled ∧
    (∀ e', vnoExample.vacuumNormalOrdered oneFermion false = .ok e' → e'.length = 2) := by
  refine ⟨⟨by simp [vnoExample], by simp only [vnoExample, List.mem_singleton, forall_eq]; decide⟩, ?_, ?_, ?_⟩
  · simp [Expr.OpsRegistered, STerm.OpsRegistered, vnoExample, Index.Registered, oneFermion]
  · simp [Expr.Unlabelled, vnoExample]
  · intro e' h
    have : vnoExample.vacuumNormalOrdered oneFermion false = .ok
      [(⟨false, [⟨.creation, ⟨0, 1⟩⟩, ⟨.annihilation, ⟨0, 0⟩⟩], [⟨"t".toList, [⟨0, 1⟩], [⟨0, 0⟩], .antisymmetric, false⟩]⟩, Rational.mk2 (-1) 2),
       (⟨false, [], [⟨"t".toList, [⟨0, 1⟩], [⟨0, 0⟩], .antisymmetric, false⟩, ⟨"delta".toList, [⟨0, 0⟩], [⟨0, 1⟩], .nonsymmetric, false⟩]⟩, Rational.mk2 1 2)] := by decide
    rw [this] at h; cases h; rfl

/-! ## C27 -/

theorem normalForm_of_good {o : OSI} {t : STerm} (h : VnoGood o t) : NormalForm o t.ops := by
  have hchain : List.IsChain (fun a b => lt a b = true ∨ (a = b ∧ ¬ a.index.IsFermion o)) t.ops := by
    have h1 := h.sorted
    have h2 := h.nodup
    generalize t.ops = l at h1 h2
    induction l with
    | nil => simp
    | cons a l ih =>
      cases l with
      | nil => simp
      | cons b l =>
        rw [List.isChain_cons_cons] at h1 h2 ⊢
        refine ⟨?_, ih h1.2 h2.2⟩
        by_cases hab : a = b
        · exact Or.inr ⟨hab, fun hf => h2.1 ⟨hab, hf⟩⟩
        · left
          rcases lt_trichotomy a b with h | h | h
          · exact h
          · rw [eqv_eq] at h; exact absurd h hab
          · rw [h1.1] at h; cases h
  haveI : IsTrans SQOp (fun a b => lt a b = true ∨ (a = b ∧ ¬ a.index.IsFermion o)) := ⟨by
    rintro a b c (h | ⟨rfl, h⟩) (h' | ⟨rfl, h'⟩)
    · exact Or.inl (StrictWeak.trans _ _ _ h h')
    · exact Or.inl h
    · exact Or.inl h'
    · exact Or.inr ⟨rfl, h⟩⟩
  have hp := List.isChain_iff_pairwise.1 hchain
  refine hp.imp ?_
  rintro a b (h | ⟨rfl, h⟩)
  · have hlt : SQOp.ltB a b = true := h
    refine ⟨?_, ?_, ?_, ?_⟩
    · intro hb
      by_contra ha
      simp only [Bool.not_eq_true] at ha
      rw [SQOp.ltB] at hlt; simp [ha, hb] at hlt
    · intro ha hb
      rw [SQOp.ltB] at hlt; simp [ha, hb] at hlt
      exact lt_asymm (α := Index) hlt
    · intro ha hb
      rw [SQOp.ltB] at hlt; simp [ha, hb] at hlt
      exact lt_asymm (α := Index) hlt
    · rintro ⟨rfl, _⟩
      have : lt a a = true := h
      rw [StrictWeak.irrefl] at this; cases this
  · refine ⟨id, fun _ _ => StrictWeak.irrefl (α := Index) _, fun _ _ => StrictWeak.irrefl (α := Index) _, fun hh => h hh.2⟩

theorem isVno_of_chain : ∀ {l : List SQOp}, List.IsChain (fun a b => lt b a = false) l ↔ STerm.isVacuumNormalOrdered.go l = true
  | [] => by simp [STerm.isVacuumNormalOrdered.go]
  | [_] => by simp [STerm.isVacuumNormalOrdered.go]
  | a :: b :: l => by
    rw [List.isChain_cons_cons, isVno_of_chain, STerm.isVacuumNormalOrdered.go]
    by_cases h : lt b a = true <;> simp [h]

/-- **C27**: every term of the result is in normal form, and `is_vacuum_normal_ordered()` is true
for the result. -/
theorem C27_result_normal_ordered (o : OSI) (onlySame : Bool) {e e' : Expr} (he : Ok e) (hr : e.OpsRegistered o)
    (h : e.vacuumNormalOrdered o onlySame = .ok e') :
    (∀ p ∈ e', NormalForm o p.1.ops ∧ p.1.normalOrdered = false) ∧ e'.isVacuumNormalOrdered = true := by
  have hu : e.Unlabelled := by
    unfold Expr.vacuumNormalOrdered at h
    split at h
    · cases h
    · rename_i hn
      intro p hp
      by_contra hh
      exact hn (List.any_eq_true.2 ⟨p, hp, by simpa using hh⟩)
  obtain ⟨r', h1, _, _, h4⟩ := vnoFold_spec (s := onlySame) e [] ok_nil he.canon hr hu (by simp)
  rw [vno_unfold hu, h1] at h
  cases h
  refine ⟨fun p hp => ⟨normalForm_of_good (h4 p hp), (h4 p hp).flag⟩, ?_⟩
  unfold Expr.isVacuumNormalOrdered
  rw [List.all_eq_true]
  intro p hp
  exact isVno_of_chain.1 (h4 p hp).sorted

/-- **C27**: `is_vacuum_normal_ordered()` tests exactly that every term has its creation operators
on the left in increasing, its annihilation operators on the right in decreasing index order. -/
theorem C27_test_exact (e : Expr) :
    e.isVacuumNormalOrdered = true ↔ ∀ p ∈ e, p.1.ops.Pairwise (fun a b =>
      (b.isCre = true → a.isCre = true) ∧
      (a.isCre = true → b.isCre = true → Index.lt b.index a.index = false) ∧
      (a.isCre = false → b.isCre = false → Index.lt a.index b.index = false)) := by
  unfold Expr.isVacuumNormalOrdered
  rw [List.all_eq_true]
  apply forall₂_congr
  intro p _
  unfold STerm.isVacuumNormalOrdered
  rw [← isVno_of_chain]
  have hrel : ∀ a b : SQOp, lt b a = false ↔ ((b.isCre = true → a.isCre = true) ∧
      (a.isCre = true → b.isCre = true → Index.lt b.index a.index = false) ∧
      (a.isCre = false → b.isCre = false → Index.lt a.index b.index = false)) := by
    intro a b
    show SQOp.ltB b a = false ↔ _
    unfold SQOp.ltB
    have : ∀ i j : Index, CppLt.lt i j = Index.lt i j := fun _ _ => rfl
    cases ha : a.isCre <;> cases hb : b.isCre <;> simp [this]
  haveI : IsTrans SQOp (fun a b => lt b a = false) := ⟨fun _ _ _ h h' => not_lt_trans h h'⟩
  rw [List.isChain_iff_pairwise]
  constructor
  · intro h; exact h.imp (fun hh => (hrel _ _).1 hh)
  · intro h; exact h.imp (fun hh => (hrel _ _).2 hh)

example : (Expr.isVacuumNormalOrdered vnoExample) = false := by decide

/-! ## C28 -/

theorem vno_of_good {o : OSI} {s : Bool} {t : STerm} (h : VnoGood o t) :
    t.vacuumNormalOrder o s = .ok [(t, Rational.ofInt 1)] := by
  unfold STerm.vacuumNormalOrder STerm.vnoFuel
  rw [STerm.vnoAux]
  split
  · rfl
  · rcases noAdj_spec h.reg with ⟨hv, _⟩ | ⟨hv, pre, a, post, hl, hf⟩
    · rw [hv]
      simp only [bind, Except.bind, adjFind_none.2 h.sorted]; rfl
    · exfalso
      have := h.nodup
      rw [hl, List.isChain_append] at this
      have h2 := this.2.1
      rw [List.isChain_cons_cons] at h2
      exact h2.1 ⟨rfl, hf⟩

theorem vnoFold_good {o : OSI} {s : Bool} : ∀ (e r : Expr), (∀ p ∈ e, VnoGood o p.1) →
    vnoFold o s e r = .ok (e.foldl (fun r p => Lin.add r p.1 (Rational.mul p.2 (Rational.ofInt 1))) r)
  | [], r, _ => rfl
  | p :: e, r, h => by
    rw [vnoFold_cons (vno_of_good (h p (List.mem_cons_self ..))), vnoFold_good e _ (fun q hq => h q (List.mem_cons_of_mem _ hq))]
    rfl

/-- **C28**: the recursion terminates on every term over registered spaces: with `fuel` levels of
recursion for any `fuel ≥ n² + n + 1` the model returns, and always the same result. -/
theorem C28_terminates (o : OSI) (onlySame : Bool) (t : STerm) (hr : t.OpsRegistered o) (hf : t.normalOrdered = false) :
    ∃ r, ∀ fuel, t.ops.length * t.ops.length + t.ops.length + 1 ≤ fuel →
      STerm.vnoAux o onlySame fuel t (Rational.ofInt 1) = .ok r := by
  obtain ⟨r, hr, _⟩ := vno_term (s := onlySame) hr hf
  exact ⟨r, fun fuel hle => vnoAux_mono _ fuel t _ r hle hr⟩

/-- **C28**: applying `vacuum_normal_ordered` to its own result succeeds and gives an `==`
expression. -/
theorem C28_idempotent (o : OSI) (onlySame onlySame' : Bool) {e e' : Expr} (he : Ok e) (hr : e.OpsRegistered o)
    (h : e.vacuumNormalOrdered o onlySame = .ok e') :
    ∃ e'', e'.vacuumNormalOrdered o onlySame' = .ok e'' ∧ isEqual e'' e' = true := by
  have hu : e.Unlabelled := by
    unfold Expr.vacuumNormalOrdered at h
    split at h
    · cases h
    · rename_i hn
      intro p hp
      by_contra hh
      exact hn (List.any_eq_true.2 ⟨p, hp, by simpa using hh⟩)
  obtain ⟨r', h1, h2, h3, h4⟩ := vnoFold_spec (s := onlySame) e [] ok_nil he.canon hr hu (by simp)
  rw [vno_unfold hu, h1] at h
  cases h
  have hw := h3 wf_nil
  have hu' : Expr.Unlabelled e' := fun p hp => (h4 p hp).flag
  refine ⟨_, by rw [vno_unfold hu', vnoFold_good e' [] h4], ?_⟩
  have := scaledByAdding_spec hw.toOk (canon_ofInt 1)
  show isEqual (scaledByAdding e' (Rational.ofInt 1)) e' = true
  rw [isEqual_iff this.1 hw]
  intro k
  refine (this.2 k).trans (by simp)

/-! ## C29 -/

/-- **C29**: `vacuum_normal_ordered` raises iff some term is labelled normal ordered. -/
theorem C29_vno_raises (o : OSI) (onlySame : Bool) {e : Expr} (he : Ok e) (hr : e.OpsRegistered o) :
    (e.vacuumNormalOrdered o onlySame = .error .throw ↔ ∃ p ∈ e, p.1.normalOrdered = true) ∧
    ((∀ p ∈ e, p.1.normalOrdered = false) → ∃ e', e.vacuumNormalOrdered o onlySame = .ok e') := by
  have hok : (∀ p ∈ e, p.1.normalOrdered = false) → ∃ e', e.vacuumNormalOrdered o onlySame = .ok e' := by
    intro hu
    obtain ⟨r', h1, _⟩ := vnoFold_spec (s := onlySame) e [] ok_nil he.canon hr hu (by simp)
    exact ⟨r', by rw [vno_unfold hu]; exact h1⟩
  refine ⟨⟨?_, ?_⟩, hok⟩
  · intro h
    by_contra hn
    push Not at hn
    obtain ⟨e', he'⟩ := hok (fun p hp => by simpa using hn p hp)
    rw [he'] at h; cases h
  · rintro ⟨p, hp, h⟩
    unfold Expr.vacuumNormalOrdered
    rw [if_pos (List.any_eq_true.2 ⟨p, hp, h⟩)]

theorem sterm_mul_cases (a b : STerm) :
    (a.mul b = .error .throw ∧ (a.normalOrdered = true ∨ b.normalOrdered = true)) ∨
    (a.mul b = .ok ⟨false, a.ops ++ b.ops, a.tensors ++ b.tensors⟩ ∧ a.normalOrdered = false ∧ b.normalOrdered = false) := by
  unfold STerm.mul
  cases ha : a.normalOrdered <;> cases hb : b.normalOrdered <;> simp

/-- inner loop of the product -/
theorem mulM_inner (p : STerm × Rational) : ∀ (b r : Expr),
    ((∃ q ∈ b, p.1.normalOrdered = true ∨ q.1.normalOrdered = true) ∧
      b.foldlM (fun r q => do
        let k ← STerm.mul p.1 q.1
        return Lin.add r k (Rational.mul p.2 q.2)) r = (.error .throw : Res Expr)) ∨
    ((∀ q ∈ b, p.1.normalOrdered = false ∧ q.1.normalOrdered = false) ∧
      b.foldlM (fun r q => do
        let k ← STerm.mul p.1 q.1
        return Lin.add r k (Rational.mul p.2 q.2)) r = (.ok (b.foldl (fun r q => Lin.add r ⟨false, p.1.ops ++ q.1.ops, p.1.tensors ++ q.1.tensors⟩ (Rational.mul p.2 q.2)) r) : Res Expr))
  | [], r => Or.inr ⟨by simp, rfl⟩
  | q :: b, r => by
    rw [List.foldlM_cons]
    rcases sterm_mul_cases p.1 q.1 with ⟨h1, h2⟩ | ⟨h1, h2, h3⟩
    · left
      refine ⟨⟨q, List.mem_cons_self .., h2⟩, ?_⟩
      rw [h1]; rfl
    · rw [h1]
      simp only [bind, Except.bind, pure, Except.pure]
      rcases mulM_inner p b (Lin.add r ⟨false, p.1.ops ++ q.1.ops, p.1.tensors ++ q.1.tensors⟩ (Rational.mul p.2 q.2)) with ⟨⟨q', hq', h4⟩, h5⟩ | ⟨h4, h5⟩
      · exact Or.inl ⟨⟨q', List.mem_cons_of_mem _ hq', h4⟩, h5⟩
      · refine Or.inr ⟨?_, h5⟩
        intro q' hq'
        rcases List.mem_cons.1 hq' with rfl | hq'
        · exact ⟨h2, h3⟩
        · exact h4 q' hq'

/-- the product of unlabelled terms -/
def STerm.cat (a b : STerm) : STerm := ⟨false, a.ops ++ b.ops, a.tensors ++ b.tensors⟩

theorem mulM_outer (b : Expr) : ∀ (a r : Expr),
    ((∃ p ∈ a, ∃ q ∈ b, p.1.normalOrdered = true ∨ q.1.normalOrdered = true) ∧
      a.foldlM (fun r p => b.foldlM (fun r q => do
        let k ← STerm.mul p.1 q.1
        return Lin.add r k (Rational.mul p.2 q.2)) r) r = (.error .throw : Res Expr)) ∨
    ((∀ p ∈ a, ∀ q ∈ b, p.1.normalOrdered = false ∧ q.1.normalOrdered = false) ∧
      a.foldlM (fun r p => b.foldlM (fun r q => do
        let k ← STerm.mul p.1 q.1
        return Lin.add r k (Rational.mul p.2 q.2)) r) r =
        (.ok (a.foldl (fun r p => b.foldl (fun r q => Lin.add r (p.1.cat q.1) (Rational.mul p.2 q.2)) r) r) : Res Expr))
  | [], r => Or.inr ⟨by simp, rfl⟩
  | p :: a, r => by
    rw [List.foldlM_cons]
    rcases mulM_inner p b r with ⟨⟨q, hq, h⟩, h'⟩ | ⟨h, h'⟩
    · left; refine ⟨⟨p, List.mem_cons_self .., q, hq, h⟩, ?_⟩
      rw [h']; rfl
    · rw [h']
      simp only [bind, Except.bind]
      rcases mulM_outer b a (b.foldl (fun r q => Lin.add r (p.1.cat q.1) (Rational.mul p.2 q.2)) r) with ⟨⟨p', hp', h4⟩, h5⟩ | ⟨h4, h5⟩
      · exact Or.inl ⟨⟨p', List.mem_cons_of_mem _ hp', h4⟩, h5⟩
      · refine Or.inr ⟨?_, h5⟩
        intro p' hp'
        rcases List.mem_cons.1 hp' with rfl | hp'
        · exact h
        · exact h4 p' hp'

theorem expr_mul_cases (a b : Expr) :
    ((∃ p ∈ a, ∃ q ∈ b, p.1.normalOrdered = true ∨ q.1.normalOrdered = true) ∧ Expr.mul a b = .error .throw) ∨
    ((∀ p ∈ a, ∀ q ∈ b, p.1.normalOrdered = false ∧ q.1.normalOrdered = false) ∧
      Expr.mul a b = .ok (Lin.mul STerm.cat a b)) := mulM_outer b a []

/-- **C29**: the product of two expressions raises iff both are non-empty and one of them contains a
labelled term. -/
theorem C29_product_raises (a b : Expr) :
    (Expr.mul a b = .error .throw ↔ a ≠ [] ∧ b ≠ [] ∧
      ((∃ p ∈ a, p.1.normalOrdered = true) ∨ (∃ q ∈ b, q.1.normalOrdered = true))) ∧
    (Expr.mul a b ≠ .error .throw → ∃ c, Expr.mul a b = .ok c) := by
  rcases expr_mul_cases a b with ⟨⟨p, hp, q, hq, h⟩, h'⟩ | ⟨h, h'⟩
  · refine ⟨⟨fun _ => ⟨List.ne_nil_of_mem hp, List.ne_nil_of_mem hq, ?_⟩, fun _ => h'⟩, fun hn => absurd h' hn⟩
    rcases h with h | h
    · exact Or.inl ⟨p, hp, h⟩
    · exact Or.inr ⟨q, hq, h⟩
  · refine ⟨⟨fun he => (by rw [h'] at he; cases he), ?_⟩, fun _ => ⟨_, h'⟩⟩
    rintro ⟨ha, hb, hh⟩
    exfalso
    obtain ⟨p0, hp0⟩ := List.exists_mem_of_ne_nil _ ha
    obtain ⟨q0, hq0⟩ := List.exists_mem_of_ne_nil _ hb
    rcases hh with ⟨p, hp, hpt⟩ | ⟨q, hq, hqt⟩
    · have := (h p hp q0 hq0).1; rw [hpt] at this; cases this
    · have := (h p0 hp0 q hq).2; rw [hqt] at this; cases this

/-- non-vacuity: a labelled expression -/
example : Expr.vacuumNormalOrdered oneFermion false [(⟨true, [], []⟩, Rational.ofInt 1)] = .error .throw ∧
    Expr.mul vnoExample [(⟨true, [], []⟩, Rational.ofInt 1)] = .error .throw := by decide

end Wicked
