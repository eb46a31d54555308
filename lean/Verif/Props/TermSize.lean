import Verif.Props.Program
import Verif.Props.Linked
/-! # C49: how many indices a term has, and which tensors

For every product of operators: a term of the result of `contract` has no more different indices than the product has second-quantized operators; and if
no space is general, its tensors are those of the operators, and no others. -/
namespace Wicked
open CppLt CppEq Rational Lin
namespace Wick

/-- where a term of `contract` comes from -/
theorem contract_term {o : OSI} {cfg : WickCfg} {ops : OperatorProduct} (h8 : o.spaces.length ≤ 8)
    (hv : ∀ p ∈ ops, p.Valid o.spaces.length) {f : Rational} (hf : Canon f) {minr maxr : Int} {e : Expr}
    (h : contract o cfg f ops minr maxr = .ok e) {p : STerm × Rational} (hp : p ∈ e) :
    ∃ ops' bs R f', ops'.Perm ops ∧ IsListing o ops' bs R ∧ (listTerm o ops' bs R).canonicalize o = .ok (p.1, f') := by
  obtain ⟨el, L, hel, hL, hn, hm, rs, hrs, rfl⟩ := contract_inv h8 hv hf h
  refine Lin.mem_fold_add (fun k : STerm => ∃ ops' bs R f', List.Perm ops' ops ∧ IsListing o ops' bs R ∧ (listTerm o ops' bs R).canonicalize o = .ok (k, f'))
    Prod.fst (fun r => Rational.mul f r.2) rs [] (by simp) ?_ p hp
  intro r hr
  obtain ⟨cv, hcv, hpo⟩ := forall₂_right ((mapM_ok_iff _ _ _).1 hrs) r hr
  have hE := composite_evalList h8 hv hel ((hm cv).1 hcv)
  obtain ⟨⟨gp, gc⟩, s, hA, hs, hE', hl, hpr⟩ := processOne_eq (cfg := cfg) h8 hv hE
  rw [hpr] at hpo
  simp only [bind, Except.bind] at hpo
  split at hpo
  · cases hpo
  rename_i c hcn
  simp only [pure, Except.pure] at hpo
  injection hpo with hpo
  rw [← hpo]
  exact ⟨_, _, _, c.2, perm_graphOps hA.ops, hl, hcn⟩

theorem canonicalize_card {o : OSI} {t t' : STerm} {f : Rational} (h : t.canonicalize o = .ok (t', f)) : t'.allIdx.toFinset.card ≤ t.allIdx.toFinset.card := by
  obtain ⟨ρ, tensors, ts, hs⟩ := canonicalize_shape h
  obtain ⟨_, ho, l, hl, hF⟩ := canonicalize_renamed hs
  have hsub : t'.allIdx.toFinset ⊆ t.allIdx.toFinset.image ρ := by
    intro i hi
    rw [List.mem_toFinset] at hi
    rw [Finset.mem_image]
    rcases List.mem_append.1 hi with hi | hi
    · obtain ⟨a, ha, rfl⟩ := List.mem_map.1 hi
      have := ho.mem_iff.1 ha
      obtain ⟨b, hb, rfl⟩ := List.mem_map.1 this
      exact ⟨b.index, List.mem_toFinset.2 (List.mem_append_left _ (List.mem_map_of_mem hb)), rfl⟩
    · obtain ⟨y, hy, hi⟩ := List.mem_flatMap.1 hi
      obtain ⟨x, hx, hxy⟩ := forall₂_right hF y hy
      obtain ⟨z, hz, rfl⟩ := List.mem_map.1 (hl.mem_iff.1 hx)
      have : i ∈ (z.lower.map ρ) ++ (z.upper.map ρ) := by
        rcases List.mem_append.1 hi with hi | hi
        · exact List.mem_append_left _ (hxy.2.2.2.1.mem_iff.1 hi)
        · exact List.mem_append_right _ (hxy.2.2.2.2.mem_iff.1 hi)
      rw [← List.map_append] at this
      obtain ⟨j, hj, rfl⟩ := List.mem_map.1 this
      exact ⟨j, List.mem_toFinset.2 (List.mem_append_right _ (List.mem_flatMap.2 ⟨z, hz, hj⟩)), rfl⟩
  exact (Finset.card_le_card hsub).trans Finset.card_image_le

/-- **C49** (number of indices): a term of the result of `contract` has at most as many different indices as the product has second-quantized operators. -/
theorem C49_index_bound {o : OSI} {cfg : WickCfg} {ops : OperatorProduct} (h8 : o.spaces.length ≤ 8)
    (hv : ∀ p ∈ ops, p.Valid o.spaces.length) {f : Rational} (hf : Canon f) {minr maxr : Int} {e : Expr}
    (h : contract o cfg f ops minr maxr = .ok e) {p : STerm × Rational} (hp : p ∈ e) : (p.1.allIdx.toFinset.card : Int) ≤ totalOps o.spaces.length ops := by
  obtain ⟨ops', bs, R, f', hperm, hl, hcn⟩ := contract_term h8 hv hf h hp
  have h1 := canonicalize_card hcn
  have h2 : (listTerm o ops' bs R).allIdx.toFinset ⊆ ((bs.flatMap (bSurv o) ++ R).map (slotIdx (slots o.spaces.length ops'))).toFinset := by
    intro i hi
    exact List.mem_toFinset.2 (listTerm_idx hl (List.mem_toFinset.1 hi))
  have h3 := (Finset.card_le_card h2).trans (List.toFinset_card_le _)
  rw [List.length_map] at h3
  have h4 := (surv_sub hl).length_le
  have h5 := hl.perm.length_eq
  have h6 := length_slots (ns := o.spaces.length) (ops := ops') (fun p hp => hv p (hperm.mem_iff.1 hp))
  have h7 : totalOps o.spaces.length ops' = totalOps o.spaces.length ops := by
    unfold totalOps
    rw [map_range_opAt ops' (fun p => ((List.range o.spaces.length).map (fun s => p.gm.cre s + p.gm.ann s)).sum),
      map_range_opAt ops (fun p => ((List.range o.spaces.length).map (fun s => p.gm.cre s + p.gm.ann s)).sum)]
    exact (hperm.map _).sum_eq
  omega

/-- the label and the numbers of lower and upper indices of the tensor of an operator -/
def operatorShape (ns : Nat) (q : Operator) : Str × Nat × Nat :=
  (q.label, ((List.range ns).map (fun s => (q.gm.cre s).toNat)).sum, ((List.range ns).map (fun s => (q.gm.ann s).toNat)).sum)

theorem layTensors_shapes (ns : Nat) (I : Slot → Index) (k : Nat) (ops : OperatorProduct) :
    (layTensors ns I k ops).map (fun y => (y.label, y.lower.length, y.upper.length)) = ops.map (operatorShape ns) := by
  induction ops generalizing k with
  | nil => rfl
  | cons p ops ih =>
    rw [layTensors, List.map_cons, ih, List.map_cons]
    congr 1
    simp [operatorShape, creSlots, annSlots, List.length_flatMap]

theorem canonicalize_shapes {o : OSI} {t t' : STerm} {f : Rational} (h : t.canonicalize o = .ok (t', f)) :
    (t'.tensors.map (fun y => (y.label, y.lower.length, y.upper.length))).Perm (t.tensors.map (fun y => (y.label, y.lower.length, y.upper.length))) := by
  obtain ⟨ρ, tensors, ts, hs⟩ := canonicalize_shape h
  obtain ⟨_, _, l, hl, hF⟩ := canonicalize_renamed hs
  have h1 : t'.tensors.map (fun y => (y.label, y.lower.length, y.upper.length)) = l.map (fun y => (y.label, y.lower.length, y.upper.length)) := by
    clear hl hs
    generalize t'.tensors = l' at hF
    induction hF with
    | nil => rfl
    | cons h _ ih => rw [List.map_cons, List.map_cons, h.1, h.2.2.2.1.length_eq, h.2.2.2.2.length_eq, ih]
  rw [h1]
  refine (hl.map _).trans (List.Perm.of_eq ?_)
  simp [STerm.subst, Function.comp_def]

/-- **C49** (tensors, determinant): if no space is general, every term of the result of `contract` has exactly one tensor for every operator of the product, with its label, as many lower indices as the operator
has creation operators and as many upper indices as it has annihilation operators, and no other tensor. -/
theorem C49_tensors_determinant {o : OSI} {cfg : WickCfg} {ops : OperatorProduct} (h8 : o.spaces.length ≤ 8) (hsr : ∀ s : Nat, s < o.spaces.length → o.spaceType s ≠ .ok .general)
    (hv : ∀ p ∈ ops, p.Valid o.spaces.length) {f : Rational} (hf : Canon f) {minr maxr : Int} {e : Expr}
    (h : contract o cfg f ops minr maxr = .ok e) {p : STerm × Rational} (hp : p ∈ e) :
    (p.1.tensors.map (fun y => (y.label, y.lower.length, y.upper.length))).Perm (ops.map (operatorShape o.spaces.length)) := by
  obtain ⟨ops', bs, R, f', hperm, hl, hcn⟩ := contract_term h8 hv hf h hp
  refine (canonicalize_shapes hcn).trans (List.Perm.trans (List.Perm.of_eq ?_) (hperm.map _))
  have hb : bs.flatMap (bTensors o (slots o.spaces.length ops') (slotIdx (slots o.spaces.length ops'))) = [] := by
    rw [List.flatMap_eq_nil_iff]
    intro b hb
    have := hsr _ (hl.blocks b hb).sp
    unfold bTensors
    split
    · rename_i h; exact absurd h this
    · rfl
  unfold listTerm STerm.reindex
  dsimp only
  rw [hb, List.append_nil, List.map_map]
  refine Eq.trans ?_ (layTensors_shapes o.spaces.length (slotIdx (slots o.spaces.length ops')) 0 ops')
  apply List.map_congr_left
  intro y _
  simp [Tensor.reindex]

-- non-trivial: `f t` in the single-reference registry; the terms have at most four indices, and the tensors `f` and `t`
example : (∀ p ∈ exOpsFT, p.Valid exSR.spaces.length) ∧ totalOps exSR.spaces.length exOpsFT = 4 ∧ (∀ s : Nat, s < exSR.spaces.length → exSR.spaceType s ≠ .ok .general) ∧
    ∃ e, contract exSR {} (Rational.ofInt 1) exOpsFT 0 4 = .ok e ∧ e ≠ [] ∧ ∃ p ∈ e, p.1.allIdx.toFinset.card = 4 := by
  refine ⟨?_, by decide +kernel, by decide +kernel, ?_⟩
  · intro p hp
    simp only [exOpsFT, List.mem_cons, List.not_mem_nil, or_false] at hp
    rcases hp with rfl | rfl <;> exact mkOp_valid _ _ _ (by decide) (by simp)
  · obtain ⟨e, he, h1⟩ := ok_of_check (x := contract exSR {} (Rational.ofInt 1) exOpsFT 0 4) (fun e => decide (e ≠ [] ∧ ∃ p ∈ e, p.1.allIdx.toFinset.card = 4)) (by decide +kernel)
    exact ⟨e, he, of_decide_eq_true h1⟩
end Wick
end Wicked
