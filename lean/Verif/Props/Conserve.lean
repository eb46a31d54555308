import Verif.Spec.Conserve
import Verif.Props.WickGraph
import Verif.Props.Program
import Verif.Props.NormalOrder
/-! # C90: particle numbers are conserved in every space -/
namespace Wicked
open CppLt CppEq Rational Lin
namespace Wick

theorem countP_slots {ns : Nat} {ops : OperatorProduct} (hv : ∀ p ∈ ops, p.Valid ns) (k : SQType) {s : Nat} (hs : s < ns) : ∀ j,
    ((slotsFrom ns j ops).countP (fun x => decide (x.type = k ∧ x.space = s)) : Int) = ops.numOf k s := by
  induction ops with
  | nil => intro j; rfl
  | cons p ops ih =>
    intro j
    rw [slotsFrom, List.countP_append, OperatorProduct.numOf, List.map_cons, List.sum_cons]
    push_cast
    rw [ih (fun q hq => hv q (by simp [hq])) (j + 1)]
    unfold OperatorProduct.numOf
    congr 1
    have hp := hv p (by simp)
    have flat : ∀ (b : Bool) (n : Nat → Nat), ((List.range ns).flatMap (fun s => (List.range (n s)).map (fun k => (⟨j, s, b, k⟩ : Slot)))).countP (fun x => decide (x.type = k ∧ x.space = s)) =
        if (if b then SQType.creation else .annihilation) = k then n s else 0 := by
      intro b n
      have hin : ∀ s', ((List.range (n s')).map (fun k => (⟨j, s', b, k⟩ : Slot))).countP (fun x => decide (x.type = k ∧ x.space = s)) = if (if b then SQType.creation else .annihilation) = k ∧ s' = s then n s' else 0 := by
        intro s'
        rw [List.countP_map]
        by_cases h : (if b then SQType.creation else .annihilation) = k ∧ s' = s
        · rw [if_pos h, List.countP_eq_length.2, List.length_range]
          intro x _
          exact decide_eq_true h
        · rw [if_neg h, List.countP_eq_zero.2]
          intro x _
          show ¬ (decide ((if b then SQType.creation else .annihilation) = k ∧ s' = s) = true)
          rw [decide_eq_true_eq]
          exact h
      rw [List.countP_flatMap]
      have : (List.range ns).map (List.countP (fun x : Slot => decide (x.type = k ∧ x.space = s)) ∘ fun s => (List.range (n s)).map (fun k => (⟨j, s, b, k⟩ : Slot))) =
          (List.range ns).map (fun s' => if s' = s then (if (if b then SQType.creation else .annihilation) = k then n s else 0) else 0) := by
        apply List.map_congr_left
        intro s' _
        rw [Function.comp, hin]
        by_cases h : s' = s
        · subst h; simp
        · simp [h]
      rw [this]
      generalize (if (if b then SQType.creation else .annihilation) = k then n s else 0) = c
      clear this hin
      have := Finset.sum_ite_eq' (Finset.range ns) s (fun _ => c)
      rw [if_pos (Finset.mem_range.2 hs)] at this
      exact this
    unfold opSlots creSlots annSlots
    rw [List.countP_append, List.countP_reverse, flat true (fun s => (p.gm.cre s).toNat), flat false (fun s => (p.gm.ann s).toNat)]
    have h1 := (hp s).1
    have h2 := (hp s).2.1
    cases k <;> simp <;> omega

/-- the operators left over by a listing -/
theorem listing_numOf {o : OSI} {ops : OperatorProduct} {bs : List Block} {R : List Slot} (h : IsListing o ops bs R) (hv : ∀ p ∈ ops, p.Valid o.spaces.length) {s : Nat} (hs : s < o.spaces.length) :
    ∃ n : Nat, ∀ k, (((listTerm o ops bs R).numOf k s : Nat) : Int) + n = ops.numOf k s := by
  refine ⟨(bs.map (fun b => if b.space = s then b.cre.length else 0)).sum, fun k => ?_⟩
  rw [← countP_slots hv k hs 0]
  change _ = (((slots o.spaces.length ops).countP _ : Nat) : Int)
  rw [← h.perm.countP_eq, List.countP_append, add_comm]
  have h1 : (listTerm o ops bs R).numOf k s = R.countP (fun x => decide (x.type = k ∧ x.space = s)) := by
    unfold STerm.numOf listTerm STerm.reindex
    dsimp only
    rw [List.map_map, List.countP_map]
    apply List.countP_congr
    intro x hx
    have hx' : x ∈ slots o.spaces.length ops := h.perm.mem_iff.1 (List.mem_append_right _ hx)
    have hm : applyMap (pairMap (slots o.spaces.length ops) (bs.flatMap (bPairs o))) (slotIdx (slots o.spaces.length ops) x) = slotIdx (slots o.spaces.length ops) x := by
      rw [applyMap_pairMap (nodup_slots _ _) (pairs_nodup h) (pairs_mem h) hx', ren_rest h hx]
    simp only [Function.comp, SQOp.reindex, hm, slotIdx_space (nodup_slots _ _) hx', decide_eq_true_eq, Nat.cast_inj]
  have h2 : (bs.flatMap Block.flat).countP (fun x => decide (x.type = k ∧ x.space = s)) = (bs.map (fun b => if b.space = s then b.cre.length else 0)).sum := by
    rw [List.countP_flatMap]
    congr 1
    apply List.map_congr_left
    intro b hb
    have hB := h.blocks b hb
    rw [Function.comp, Block.flat, List.countP_append]
    have hc : b.cre.countP (fun x => decide (x.type = k ∧ x.space = s)) = if k = .creation ∧ b.space = s then b.cre.length else 0 := by
      by_cases hk : k = .creation ∧ b.space = s
      · rw [if_pos hk, List.countP_eq_length]
        intro x hx
        simp [Slot.type, (hB.cre x hx).1, (hB.cre x hx).2, hk.1, hk.2]
      · rw [if_neg hk, List.countP_eq_zero]
        intro x hx
        simp only [Slot.type, (hB.cre x hx).1, (hB.cre x hx).2, decide_eq_true_eq, if_true]
        rintro ⟨e1, e2⟩
        exact hk ⟨e1.symm, e2⟩
    have ha : b.ann.countP (fun x => decide (x.type = k ∧ x.space = s)) = if k = .annihilation ∧ b.space = s then b.ann.length else 0 := by
      by_cases hk : k = .annihilation ∧ b.space = s
      · rw [if_pos hk, List.countP_eq_length]
        intro x hx
        simp [Slot.type, (hB.ann x hx).1, (hB.ann x hx).2, hk.1, hk.2]
      · rw [if_neg hk, List.countP_eq_zero]
        intro x hx
        simp only [Slot.type, (hB.ann x hx).1, (hB.ann x hx).2, decide_eq_true_eq]
        rintro ⟨e1, e2⟩
        exact hk ⟨e1.symm, e2⟩
    rw [hc, ha, hB.len]
    cases k <;> by_cases hsp : b.space = s <;> simp [hsp]
  rw [h1, h2]
  push_cast
  ring

theorem canonicalize_numOf {o : OSI} {t t' : STerm} {f : Rational} (hc : t.Covered) (h : t.canonicalize o = .ok (t', f)) (k : SQType) (s : Nat) : t'.numOf k s = t.numOf k s := by
  obtain ⟨ρ, tensors, ts, hs⟩ := canonicalize_shape h
  have hR := canonicalize_renamed hs
  unfold STerm.numOf
  rw [hR.2.1.countP_eq]
  unfold STerm.subst
  rw [List.countP_map]
  apply List.countP_congr
  intro a ha
  obtain ⟨x, hx, h1⟩ := hc a ha
  simp only [Function.comp, hs.spaceT x hx _ h1]

/-- **C90**: contractions pair a creation operator with an annihilation operator of the same space: every term of `contract` carries, in every space, `n`
creation and `n` annihilation operators less than the product of operators, with the same `n`. -/
theorem C90_conserved {o : OSI} {cfg : WickCfg} {ops : OperatorProduct} (h8 : o.spaces.length ≤ 8)
    (hv : ∀ p ∈ ops, p.Valid o.spaces.length) {f : Rational} (hf : Canon f) {minr maxr : Int} {e : Expr}
    (h : contract o cfg f ops minr maxr = .ok e) {p : STerm × Rational} (hp : p ∈ e) {s : Nat} (hs : s < o.spaces.length) :
    ∃ n : Nat, ∀ k, ((p.1.numOf k s : Nat) : Int) + n = ops.numOf k s := by
  obtain ⟨el, L, hel, hL, hn, hm, rs, hrs, rfl⟩ := contract_inv h8 hv hf h
  refine Lin.mem_fold_add (fun k : STerm => ∃ n : Nat, ∀ q, ((k.numOf q s : Nat) : Int) + n = ops.numOf q s)
    Prod.fst (fun r => Rational.mul f r.2) rs [] (by simp) ?_ p hp
  intro r hr
  obtain ⟨cv, hcv, hpo⟩ := forall₂_right ((mapM_ok_iff _ _ _).1 hrs) r hr
  have hc := (hm cv).1 hcv
  have hE := composite_evalList h8 hv hel hc
  obtain ⟨⟨gp, gc⟩, sg, hA, hsg, hE', hl, hpr⟩ := processOne_eq (cfg := cfg) h8 hv hE
  rw [hpr] at hpo
  simp only [bind, Except.bind] at hpo
  split at hpo
  · cases hpo
  rename_i c hcn
  simp only [pure, Except.pure] at hpo
  injection hpo with hpo
  rw [← hpo]
  obtain ⟨n, hn⟩ := listing_numOf hl (valid_graphOps hv hA.ops) hs
  refine ⟨n, fun k => ?_⟩
  rw [canonicalize_numOf (listTerm_covered hl) hcn, hn k]
  unfold OperatorProduct.numOf
  exact ((perm_graphOps hA.ops).map _).sum_eq

/-- **C90** for expressions -/
theorem C90_conserved_expr {o : OSI} {cfg : WickCfg} {E : OpExpr} (h8 : o.spaces.length ≤ 8)
    (hv : ∀ q ∈ E, ∀ p ∈ q.1, p.Valid o.spaces.length) (hE : ∀ q ∈ E, Canon q.2) {f : Rational} (hf : Canon f) {minr maxr : Int} {e : Expr}
    (h : contractExpr o cfg f E minr maxr = .ok e) {p : STerm × Rational} (hp : p ∈ e) :
    ∃ q ∈ E, ∀ s < o.spaces.length, ∃ n : Nat, ∀ k, ((p.1.numOf k s : Nat) : Int) + n = q.1.numOf k s := by
  obtain ⟨q, hq, e', hc, p', hp', he⟩ := contractExpr_mem h p hp
  refine ⟨q, hq, fun s hs => ?_⟩
  rw [← he]
  exact C90_conserved h8 (hv q hq) (canon_mul hf (hE q hq)) hc hp' hs

/-- **C90**, the selection rule: the full contractions of an expression none of whose products conserves the number of particles of every space
are zero: `contract` returns the empty expression. -/
theorem C90_selection_rule {o : OSI} {cfg : WickCfg} {E : OpExpr} (h8 : o.spaces.length ≤ 8)
    (hv : ∀ q ∈ E, ∀ p ∈ q.1, p.Valid o.spaces.length) (hE : ∀ q ∈ E, Canon q.2) {f : Rational} (hf : Canon f) {minr : Int} {e : Expr}
    (hnc : ∀ q ∈ E, ∃ s < o.spaces.length, q.1.numOf .creation s ≠ q.1.numOf .annihilation s)
    (h : contractExpr o cfg f E minr 0 = .ok e) : e = [] := by
  rcases e with _ | ⟨p, e⟩
  · rfl
  exfalso
  obtain ⟨q, hq, e', hc, p', hp', he⟩ := contractExpr_mem h p (by simp)
  obtain ⟨s, hs, hne⟩ := hnc q hq
  have hfq := canon_mul hf (hE q hq)
  obtain ⟨n, hn⟩ := C90_conserved h8 (hv q hq) hfq hc hp' hs
  obtain ⟨t, _, _, _, hmax, g, hcan⟩ := contract_mem h8 (hv q hq) hfq hc hp'
  have h0 : ∀ k, p'.1.numOf k s = 0 := by
    intro k
    have : p'.1.ops.length = 0 := by
      obtain ⟨ρ, tensors, ts, hsh⟩ := canonicalize_shape hcan
      have := (canonicalize_renamed hsh).2.1.length_eq
      rw [this]
      unfold STerm.subst
      rw [List.length_map]
      omega
    unfold STerm.numOf
    rw [List.length_eq_zero_iff.1 this]
    rfl
  apply hne
  rw [← hn, ← hn, h0, h0]

/-- **C90**, quantum numbers: give the operators of space `s` the charge `w s` (1 for particle number, ±1 for the projection of the spin of a spin
orbital space, ...): every term of `contract` carries the total charge of a product of the expression. -/
theorem C90_charge {o : OSI} {cfg : WickCfg} {E : OpExpr} (h8 : o.spaces.length ≤ 8)
    (hv : ∀ q ∈ E, ∀ p ∈ q.1, p.Valid o.spaces.length) (hE : ∀ q ∈ E, Canon q.2) {f : Rational} (hf : Canon f) {minr maxr : Int} {e : Expr}
    (h : contractExpr o cfg f E minr maxr = .ok e) (w : Nat → Int) {p : STerm × Rational} (hp : p ∈ e) :
    ∃ q ∈ E, ∑ s ∈ Finset.range o.spaces.length, w s * ((p.1.numOf .creation s : Int) - p.1.numOf .annihilation s) =
      ∑ s ∈ Finset.range o.spaces.length, w s * (q.1.numOf .creation s - q.1.numOf .annihilation s) := by
  obtain ⟨q, hq, hn⟩ := C90_conserved_expr h8 hv hE hf h hp
  refine ⟨q, hq, Finset.sum_congr rfl fun s hs => ?_⟩
  obtain ⟨n, hn⟩ := hn s (Finset.mem_range.1 hs)
  rw [← hn, ← hn]
  ring

/-- a product which moves a particle from the first to the second space and back, and one which only moves it there -/
example : (∃ e, contractExpr exSR {} ⟨1, 2⟩ (oneProd jwOps) 0 4 = .ok e ∧ e.length = 4 ∧
      ∀ p ∈ e, ∀ s < 2, ∃ n : Nat, ∀ k, ((p.1.numOf k s : Nat) : Int) + n = OperatorProduct.numOf jwOps k s) ∧
    contractExpr exSR {} ⟨1, 1⟩ (oneProd [mkOp "F" [(0, 0), (1, 1)], mkOp "T" [(0, 1), (1, 0)]]) 0 0 = .ok [] ∧
    (∃ e, contractExpr exSR {} ⟨1, 1⟩ (oneProd [mkOp "F" [(0, 0), (1, 1)], mkOp "T" [(0, 1), (1, 0)]]) 0 2 = .ok e ∧ e.length = 1) := by
  have hmem : ∀ (l : OperatorProduct), ∀ q ∈ oneProd l, q.1 = l ∧ Canon q.2 := by
    intro l q hq
    unfold oneProd Lin.add at hq
    rcases List.mem_singleton.1 hq with rfl
    exact ⟨rfl, canon_mk2 1 1 (by decide)⟩
  refine ⟨?_, ?_, ?_⟩
  · obtain ⟨e, he, h1⟩ := ok_of_check (x := contractExpr exSR {} ⟨1, 2⟩ (oneProd jwOps) 0 4) (fun e => decide (e.length = 4)) (by decide +kernel)
    refine ⟨e, he, of_decide_eq_true h1, fun p hp s hs => ?_⟩
    obtain ⟨q, hq, hn⟩ := C90_conserved_expr (by decide) (fun q hq => by rw [(hmem _ q hq).1]; exact jwOps_valid) (fun q hq => (hmem _ q hq).2) (by decide) he hp
    rw [← (hmem _ q hq).1]
    exact hn s hs
  · obtain ⟨e, he, -⟩ := ok_of_check (x := contractExpr exSR {} ⟨1, 1⟩ (oneProd [mkOp "F" [(0, 0), (1, 1)], mkOp "T" [(0, 1), (1, 0)]]) 0 0) (fun e => true) (by decide +kernel)
    rw [he, C90_selection_rule (by decide) (fun q hq => by
      rw [(hmem _ q hq).1]
      intro p hp
      simp only [List.mem_cons, List.not_mem_nil, or_false] at hp
      rcases hp with rfl | rfl
      · exact mkOp_valid _ _ _ (by decide) (by decide)
      · exact mkOp_valid _ _ _ (by decide) (by decide)) (fun q hq => (hmem _ q hq).2) (by decide) (fun q hq => ⟨0, by decide, by rw [(hmem _ q hq).1]; decide⟩) he]
  · obtain ⟨e, he, h1⟩ := ok_of_check (x := contractExpr exSR {} ⟨1, 1⟩ (oneProd [mkOp "F" [(0, 0), (1, 1)], mkOp "T" [(0, 1), (1, 0)]]) 0 2) (fun e => decide (e.length = 1)) (by decide +kernel)
    exact ⟨e, he, of_decide_eq_true h1⟩

end Wick

open STerm in
theorem vnoAux_numOf {o : OSI} {b : Bool} : ∀ (fuel : Nat) (t : STerm) (c : Rational) (r), STerm.vnoAux o b fuel t c = .ok r →
    ∀ p ∈ r, ∀ s, ∃ n : Nat, ∀ k, p.1.numOf k s + n = t.numOf k s := by
  intro fuel
  induction fuel with
  | zero => intro t c r h; cases h
  | succ fuel ih =>
    intro t c r h p hp s
    rw [STerm.vnoAux] at h
    have self : ∀ r', Except.ok (ε := Fault) [(t, c)] = .ok r' → p ∈ r' → ∃ n : Nat, ∀ k, p.1.numOf k s + n = t.numOf k s := by
      intro r' h hp
      cases h
      rw [List.mem_singleton] at hp
      subst hp
      exact ⟨0, fun k => rfl⟩
    by_cases he : t.ops.isEmpty = true
    · rw [if_pos he] at h
      exact self r h hp
    · rw [if_neg he] at h
      cases hv : noAdjacentIdentical o t.ops with
      | error x => rw [hv] at h; cases h
      | ok valid =>
        rw [hv] at h
        cases valid with
        | false =>
          cases h
          cases hp
        | true =>
          cases hf : adjFind (fun a b => lt b a) t.ops with
          | none =>
            simp only [bind, Except.bind, hf] at h
            exact self r h hp
          | some q =>
            rcases q with ⟨pre, a, b', post⟩
            obtain ⟨hl, -⟩ := adjFind_some hf
            simp only [bind, Except.bind, hf] at h
            cases hsg : a.commutatorFactor o b' with
            | error x => rw [hsg] at h; cases h
            | ok sg =>
              rw [hsg] at h
              simp only at h
              cases hr1 : STerm.vnoAux o b fuel ⟨false, pre ++ b' :: a :: post, t.tensors⟩ (Rational.mul c sg) with
              | error x => rw [hr1] at h; cases h
              | ok r1 =>
                rw [hr1] at h
                simp only at h
                have first : p ∈ r1 → ∃ n : Nat, ∀ k, p.1.numOf k s + n = t.numOf k s := by
                  intro hp
                  obtain ⟨n, hn⟩ := ih _ _ _ hr1 p hp s
                  refine ⟨n, fun k => ?_⟩
                  rw [hn k]
                  unfold STerm.numOf
                  rw [hl]
                  exact List.Perm.countP_eq _ ((List.Perm.swap _ _ _).append_left _)
                by_cases hcond : (a.isCre != b'.isCre && decide (a.index.space = b'.index.space)) = true
                · simp only [hcond] at h
                  by_cases hcond2 : (!b || decide (a.index = b'.index)) = true
                  · simp only [hcond2] at h
                    generalize hT : (if decide (a.index = b'.index) = true then t.tensors else t.tensors ++ [deltaTensor a b']) = T at h
                    cases hr2 : STerm.vnoAux o b fuel ⟨false, pre ++ post, T⟩ c with
                    | error x => rw [hr2] at h; cases h
                    | ok r2 =>
                      rw [hr2] at h
                      cases h
                      rcases List.mem_append.1 hp with hp | hp
                      · exact first hp
                      · obtain ⟨n, hn⟩ := ih _ _ _ hr2 p hp s
                        refine ⟨n + if a.index.space = (s : Int) then 1 else 0, fun k => ?_⟩
                        rw [← add_assoc, hn k]
                        unfold STerm.numOf
                        rw [hl]
                        simp only [List.countP_append, List.countP_cons]
                        rw [Bool.and_eq_true, decide_eq_true_eq] at hcond
                        obtain ⟨hc1, hc2⟩ := hcond
                        rw [← hc2]
                        obtain ⟨ta, ia⟩ := a
                        obtain ⟨tb, ib⟩ := b'
                        by_cases hsp : ia.space = (s : Int) <;> cases ta <;> cases tb <;> cases k <;> simp [SQOp.isCre, hsp] at hc1 ⊢ <;> omega
                  · simp only [hcond2] at h
                    cases h
                    exact first hp
                · simp only [hcond] at h
                  cases h
                  exact first hp

/-- **C90** for `vacuum_normal_ordered`: every term of the result comes from a term of the expression, with `n` creation and `n` annihilation
operators less in every space, with the same `n`. -/
theorem C90_vacuum_normal_ordered {o : OSI} {onlySame : Bool} {e e' : Expr} (h : e.vacuumNormalOrdered o onlySame = .ok e') {p : STerm × Rational} (hp : p ∈ e') :
    ∃ q ∈ e, ∀ s, ∃ n : Nat, ∀ k, p.1.numOf k s + n = q.1.numOf k s := by
  have hu : e.Unlabelled := by
    unfold Expr.vacuumNormalOrdered at h
    split at h
    · cases h
    · rename_i hn
      intro p hp
      by_contra hc
      exact hn (List.any_eq_true.2 ⟨p, hp, by simpa using hc⟩)
  rw [vno_unfold hu] at h
  have key : ∀ (P : STerm → Prop) (e r r' : Expr), vnoFold o onlySame e r = .ok r' → (∀ p ∈ r, P p.1) →
      (∀ q ∈ e, ∀ l, q.1.vacuumNormalOrder o onlySame = .ok l → ∀ p ∈ l, P p.1) → ∀ p ∈ r', P p.1 := by
    intro P e
    induction e with
    | nil => intro r r' h hr _; cases h; exact hr
    | cons q e ih =>
      intro r r' h hr hq
      cases hl : q.1.vacuumNormalOrder o onlySame with
      | error x =>
        unfold vnoFold at h
        rw [List.foldlM_cons] at h
        simp only [hl, bind, Except.bind] at h
        cases h
      | ok l =>
        rw [vnoFold_cons hl] at h
        refine ih _ r' h ?_ (fun q' hq' => hq q' (by simp [hq']))
        exact Lin.mem_fold_add P Prod.fst (fun x => Rational.mul q.2 x.2) l r hr (hq q (by simp) l hl)
  refine key (fun t => ∃ q ∈ e, ∀ s, ∃ n : Nat, ∀ k, t.numOf k s + n = q.1.numOf k s) e [] e' h (by simp) ?_ p hp
  intro q hq l hl p hp
  exact ⟨q, hq, fun s => vnoAux_numOf _ _ _ _ hl p hp s⟩

/-- the term `a_0 a†_0` in a registered space of fermions: both terms of the result, the pair and the number 1, have as many creation as annihilation operators -/
example : ∃ e', Expr.vacuumNormalOrdered exSR false [(⟨false, [⟨.annihilation, ⟨0, 0⟩⟩, ⟨.creation, ⟨0, 0⟩⟩], []⟩, ⟨1, 1⟩)] = .ok e' ∧ e'.length = 2 ∧
    ∀ p ∈ e', p.1.numOf .creation 0 = p.1.numOf .annihilation 0 := by
  obtain ⟨e, he, h1⟩ := Wick.ok_of_check (x := Expr.vacuumNormalOrdered exSR false [(⟨false, [⟨.annihilation, ⟨0, 0⟩⟩, ⟨.creation, ⟨0, 0⟩⟩], []⟩, ⟨1, 1⟩)]) (fun e => decide (e.length = 2)) (by decide +kernel)
  refine ⟨e, he, of_decide_eq_true h1, fun p hp => ?_⟩
  obtain ⟨q, hq, hn⟩ := C90_vacuum_normal_ordered he hp
  obtain ⟨n, hn⟩ := hn 0
  rcases List.mem_singleton.1 hq with rfl
  have h2 := hn .creation
  have h3 := hn .annihilation
  exact Nat.add_right_cancel ((h2.trans (by decide)).trans h3.symm)

end Wicked
