import Verif.Proofs.WickSchemes
import Verif.Props.WickCount
import Verif.Props.CanonTerm
import Mathlib.LinearAlgebra.ExteriorAlgebra.Basic
/-! # C53: `contract` is Wick's theorem -/
namespace Wicked
open CppLt CppEq Rational
namespace Wick
open scoped Classical

section
variable {Ω R A : Type} [Inhabited Ω] [DecidableEq Ω] [CommRing R] [Ring A] [Algebra R A] [Algebra ℚ A]

theorem value_congr (v : OrbSystem Ω R A) (a b : STerm) (h : eqv a b = true) : v.value a = v.value b := by
  rw [sterm_eqv] at h
  simp only [STerm.key, Prod.mk.injEq] at h
  have h1 : a.allIdx = b.allIdx := by
    unfold STerm.allIdx
    have : ∀ l : List Tensor, l.flatMap (fun x => x.lower ++ x.upper) = (l.map Tensor.key).flatMap (fun k => k.2.1 ++ k.2.2) := by
      intro l; rw [List.flatMap_map]; rfl
    rw [this, this, h.1, h.2]
  have h2 : ∀ σ : Index → Ω, v.inst σ a = v.inst σ b := by
    intro σ
    unfold OrbSystem.inst
    have : ∀ l : List Tensor, (l.map (fun t => v.T t.label (t.lower.map σ) (t.upper.map σ))) = (l.map Tensor.key).map (fun k => v.T k.1 (k.2.1.map σ) (k.2.2.map σ)) := by
      intro l; rw [List.map_map]; rfl
    rw [this, this, h.1, h.2]
  rw [value_sumOver, value_sumOver, h1]
  exact sumOver_congr (fun x _ => h2 x)

theorem sumOver_nsmul {ι Ω A : Type} [DecidableEq ι] [Inhabited Ω] [AddCommMonoid A] {S : Finset ι} {d : ι → Finset Ω} (n : ℕ) (F : (ι → Ω) → A) :
    sumOver S d (fun x => n • F x) = n • sumOver S d F := by
  unfold sumOver
  rw [Finset.smul_sum]

/-- the sum over all realisations of one composite contraction -/
theorem sum_real {o : OSI} {m : Int} {ops : OperatorProduct} {cs : CContr} {p c : List Int} (h8 : o.spaces.length ≤ 8)
    (hvo : ∀ q ∈ ops, q.Valid o.spaces.length) (hA : Admissible o.spaces.length ops cs (p, c)) (hE : EvalList o ops cs)
    (hcon : ∀ S ∈ realisations o.spaces.length ops cs, ∀ b ∈ S, IsContraction o m b)
    {v : OrbSystem Ω R A} (hv : v.Antisymmetric) (hac : v.Anticommute) :
    sumOver (slots o.spaces.length ops).toFinset (fun y => v.dom y.space) (fun x =>
        opElements v o.spaces.length ops x • ∑ S ∈ realisations o.spaces.length ops cs, overcount S • schemeTerm v o (slots o.spaces.length ops) x S) =
      toRat (combFactor o.spaces.length ops cs) • (exchangeSign (fun i => (opAt ops i.toNat).numOps) p •
        (listSign o (graphOps ops (p, c)) (blocksOf o (graphOps ops (p, c)) (graphContr cs (p, c))) (restOps o (graphOps ops (p, c)) (graphContr cs (p, c))) •
          v.value (listTerm o (graphOps ops (p, c)) (blocksOf o (graphOps ops (p, c)) (graphContr cs (p, c))) (restOps o (graphOps ops (p, c)) (graphContr cs (p, c)))))) := by
  have h1 : ∀ S ∈ realisations o.spaces.length ops cs,
      sumOver (slots o.spaces.length ops).toFinset (fun y => v.dom y.space) (fun x =>
        opElements v o.spaces.length ops x • schemeTerm v o (slots o.spaces.length ops) x S) =
        exchangeSign (fun i => (opAt ops i.toNat).numOps) p •
        (listSign o (graphOps ops (p, c)) (blocksOf o (graphOps ops (p, c)) (graphContr cs (p, c))) (restOps o (graphOps ops (p, c)) (graphContr cs (p, c))) •
          v.value (listTerm o (graphOps ops (p, c)) (blocksOf o (graphOps ops (p, c)) (graphContr cs (p, c))) (restOps o (graphOps ops (p, c)) (graphContr cs (p, c))))) := by
    intro S hS
    rw [← Int.cast_smul_eq_zsmul R, ← Int.cast_smul_eq_zsmul R]
    have hm := mem_realisations.1 hS
    obtain ⟨bs1, hb1, hb2⟩ := real_match hE.ev hS (hcon S hS)
    refine Eq.trans ?_ (graph_value h8 hvo hA hE (scheme_listing hm.1 (hcon S hS) hm.2.1) hb1 hb2 hv hac)
    apply sumOver_congr
    intro x _
    rw [scheme_value v x hm.1 (hcon S hS)]
  have h2 : (fun x : Slot → Ω => opElements v o.spaces.length ops x • ∑ S ∈ realisations o.spaces.length ops cs, overcount S • schemeTerm v o (slots o.spaces.length ops) x S) =
      fun x => ∑ S ∈ realisations o.spaces.length ops cs, (∏ e ∈ cs.toFinset, (cs.count e - 1).factorial) • (opElements v o.spaces.length ops x • schemeTerm v o (slots o.spaces.length ops) x S) := by
    funext x
    rw [Finset.smul_sum]
    apply Finset.sum_congr rfl
    intro S hS
    rw [overcount_eq h8 (fun e he => evaluable_good (hE.ev e he)) hS, smul_comm]
  rw [h2, sumOver_sum]
  simp only [sumOver_nsmul]
  rw [Finset.sum_congr rfl (fun S hS => by rw [h1 S hS]), Finset.sum_const, combFactor_evalList h8 hvo hE, mul_smul, ← Nat.cast_prod,
    Nat.cast_smul_eq_nsmul, Nat.cast_smul_eq_nsmul]

theorem forall₂_map_eq {α β γ : Type _} {Q : α → β → Prop} {l : List α} {m : List β} (h : List.Forall₂ Q l m) {g : β → γ} {k : α → γ}
    (hf : ∀ a ∈ l, ∀ b, Q a b → g b = k a) : m.map g = l.map k := by
  induction h with
  | nil => rfl
  | cons h1 _ ih => rw [List.map_cons, List.map_cons, hf _ (by simp) _ h1, ih (fun a ha => hf a (by simp [ha]))]

/-- **C53**, exact value of the result for every product: for all orbital dimensions (`v.dom`), all tensors
that are antisymmetric in their lower and in their upper indices and all anticommuting symbols for the operators
that are left over, the value of the expression that `contract(f, ops, minrank, maxrank)` returns is
`f · ∏ (factor of each operator)` times the sum over the orbitals of all second-quantized operators and over all
sets of disjoint contractions with a number of uncontracted operators in the window, of
`overcount · sign · ∏ (values of the contractions) · ∏ (tensor elements) · (uncontracted operators)`.
Wick's theorem has weight 1 in place of `overcount`; see `C53_wick_partial` and `C53_three_body_doubled`. -/
theorem C53_wick_weighted {o : OSI} {cfg : WickCfg} {ops : OperatorProduct} (h8 : o.spaces.length ≤ 8)
    (hvo : ∀ p ∈ ops, p.Valid o.spaces.length) {f : Rational} (hf : Canon f) {minr maxr : Int} {e : Expr}
    (h : contract o cfg f ops minr maxr = .ok e) {v : OrbSystem Ω R A} (hv : v.Antisymmetric) (hac : v.Anticommute) :
    Lin.eval v.value e = (toRat f * (ops.map (fun p => toRat (p.factor o.spaces.length))).prod) •
      wickSum v o cfg.maxCumulant ops minr maxr overcount := by
  obtain ⟨el, L, hel, hL, hn, hm, rs, hrs, rfl⟩ := contract_inv h8 hvo hf h
  obtain ⟨el', hel', hnd, hspec⟩ := elementary_spec (cfg := cfg) hvo h8
  rw [hel] at hel'; injection hel' with hel'; subst hel'
  have hF := (mapM_ok_iff _ _ _).1 hrs
  -- one composite contraction
  have key : ∀ cv ∈ L, ∀ r, processOne o cfg ops (pickAt el cv) (Rational.ofInt 1) = .ok r →
      Canon r.2 ∧ toRat (Rational.mul f r.2) • v.value r.1 = (toRat f * (ops.map (fun p => toRat (p.factor o.spaces.length))).prod) •
        sumOver (slots o.spaces.length ops).toFinset (fun y => v.dom y.space) (fun x =>
          opElements v o.spaces.length ops x • ∑ S ∈ realisations o.spaces.length ops (pickAt el cv), overcount S • schemeTerm v o (slots o.spaces.length ops) x S) := by
    intro cv hcv r hr
    have hcr := (processOne_unit o cfg ops (pickAt el cv) (canon_ofInt 1)).2 r hr
    have hc := (hm cv).1 hcv
    have hE := composite_evalList h8 hvo hel hc
    obtain ⟨⟨gp, gc⟩, s, hA, hs, hE', hl, hpr⟩ := processOne_eq (cfg := cfg) h8 hvo hE
    rw [hpr] at hr
    have hcon : ∀ S ∈ realisations o.spaces.length ops (pickAt el cv), ∀ b ∈ S, IsContraction o cfg.maxCumulant b :=
      fun S hS => (scheme_of_real h8 hvo hspec hc hS).2.1
    rw [sum_real h8 hvo hA hE hcon hv hac]
    have hcov := listTerm_covered hl
    have hsym := listTerm_symm hl
    have hcf := combFactor_graph h8 hvo hE hA.ops hA.contr
    have hfac : ((graphOps ops (gp, gc)).map (fun p => toRat (p.factor o.spaces.length))).prod = (ops.map (fun p => toRat (p.factor o.spaces.length))).prod :=
      ((perm_graphOps hA.ops).map _).prod_eq
    generalize listTerm o (graphOps ops (gp, gc)) (blocksOf o (graphOps ops (gp, gc)) (graphContr (pickAt el cv) (gp, gc))) (restOps o (graphOps ops (gp, gc)) (graphContr (pickAt el cv) (gp, gc))) = t at *
    generalize listSign o (graphOps ops (gp, gc)) (blocksOf o (graphOps ops (gp, gc)) (graphContr (pickAt el cv) (gp, gc))) (restOps o (graphOps ops (gp, gc)) (graphContr (pickAt el cv) (gp, gc))) = ls at *
    cases hcn : t.canonicalize o with
    | error e => rw [hcn] at hr; cases hr
    | ok c =>
      rw [hcn] at hr
      simp only [bind, Except.bind, pure, Except.pure] at hr
      injection hr with hr
      subst hr
      obtain ⟨t', cf⟩ := c
      have hval := (C33_value_preserved_partial hcov hcn).1 Ω R A v (fun x hx => ⟨fun _ => hv x.label, fun h => by rw [hsym x hx] at h; cases h⟩) hac
      refine ⟨hcr, ?_⟩
      simp only [toRat_mul, toRat_ofInt, toRat_opFactors, hs, hcf, hfac]
      rw [hval, ← Int.cast_smul_eq_zsmul ℚ, ← Int.cast_smul_eq_zsmul ℚ]
      simp only [smul_smul]
      congr 1
      push_cast
      ring
  have hcan : ∀ r ∈ rs, Canon (Rational.mul f r.2) := by
    intro r hr
    obtain ⟨cv, hcv, hpo⟩ := forall₂_right hF r hr
    exact canon_mul hf (key cv hcv r hpo).1
  rw [Lin.eval_fold_add v.value (value_congr v) rs Prod.fst (fun r => Rational.mul f r.2) hcan [] Lin.ok_nil, Lin.eval_nil, zero_add,
    forall₂_map_eq hF (fun cv hcv r hr => (key cv hcv r hr).2), ← List.sum_toFinset _ hn, ← Finset.smul_sum, ← sumOver_sum]
  congr 1
  unfold wickSum
  apply sumOver_congr
  intro x _
  rw [← Finset.smul_sum, sum_schemes h8 hvo hspec hnd hn hm, List.sum_toFinset _ hn]

/-- every contraction has a creation and an annihilation operator of different factors, in the order in which they can
be contracted -/
theorem contraction_legs {o : OSI} {m : Int} {b : Finset Slot} (h : IsContraction o m b) :
    ∃ y ∈ b, ∃ z ∈ b, y.cre = true ∧ z.cre = false ∧ y.space = z.space ∧ y.op ≠ z.op ∧
      ¬ (o.spaceType y.space = .ok .occupied ∧ z.op < y.op) ∧ ¬ (o.spaceType y.space = .ok .unoccupied ∧ y.op < z.op) := by
  obtain ⟨s, hs, hsp, h⟩ := h
  rcases h with ⟨ht, c, a, rfl, hc, ha, hlt⟩ | ⟨ht, a, c, rfl, ha, hc, hlt⟩ | ⟨ht, he, h1, _, x, hx, y, hy, hxy⟩
  · have h1 := hsp c (by simp)
    have h2 := hsp a (by simp)
    refine ⟨c, by simp, a, by simp, hc, ha, by rw [h1, h2], by omega, by omega, ?_⟩
    rw [h1, ht]; simp
  · have h1 := hsp c (by simp)
    have h2 := hsp a (by simp)
    refine ⟨c, by simp, a, by simp, hc, ha, by rw [h1, h2], by omega, ?_, by omega⟩
    rw [h1, ht]; simp
  · obtain ⟨c, hc⟩ := Finset.card_pos.1 (by omega : 0 < (b.filter (fun x => x.cre = true)).card)
    obtain ⟨a, ha⟩ := Finset.card_pos.1 (by omega : 0 < (b.filter (fun x => x.cre = false)).card)
    rw [Finset.mem_filter] at hc ha
    have key : ∃ y ∈ b, ∃ z ∈ b, y.cre = true ∧ z.cre = false ∧ y.op ≠ z.op := by
      by_cases hca : c.op = a.op
      · obtain ⟨w, hw, hwo⟩ : ∃ w ∈ b, w.op ≠ c.op := by
          by_cases hxc : x.op = c.op
          · exact ⟨y, hy, fun h => hxy (by rw [hxc, h])⟩
          · exact ⟨x, hx, hxc⟩
        cases hwc : w.cre
        · exact ⟨c, hc.1, w, hw, hc.2, hwc, fun h => hwo h.symm⟩
        · exact ⟨w, hw, a, ha.1, hwc, ha.2, by rw [← hca]; exact hwo⟩
      · exact ⟨c, hc.1, a, ha.1, hc.2, ha.2, hca⟩
    obtain ⟨y, hy, z, hz, h1, h2, h3⟩ := key
    refine ⟨y, hy, z, hz, h1, h2, by rw [hsp y hy, hsp z hz], h3, ?_, ?_⟩ <;> rw [hsp y hy, ht] <;> simp

theorem overcount_one {o : OSI} {m : Int} {ops : OperatorProduct} {minr maxr : Int}
    (h2 : NoTriples o ops) {S : Finset (Finset Slot)} (h : IsScheme o m ops minr maxr S) : overcount S = 1 := by
  obtain ⟨hsub, hcon, hdis, _, _⟩ := h
  unfold overcount
  apply Finset.prod_eq_one
  intro k hk
  obtain ⟨b, hb, rfl⟩ := Finset.mem_image.1 hk
  have hle : (S.filter (fun b' => legCount b' = legCount b)).card ≤ 2 := by
    obtain ⟨y, hyb, z, hzb, hyc, hzc, hsp, hop, ho, hu⟩ := contraction_legs (hcon b hb)
    have hys := sub_slots (hsub b hb) hyb
    have hzs := sub_slots (hsub b hb) hzb
    have h3 : ∀ w ∈ b, (S.filter (fun b' => legCount b' = legCount b)).card ≤ legCount (slots o.spaces.length ops).toFinset w.cls := by
      intro w hw
      have h3 : (S.filter (fun b' => legCount b' = legCount b)).card ≤ ∑ b' ∈ S.filter (fun b' => legCount b' = legCount b), legCount b' w.cls := by
        rw [Finset.card_eq_sum_ones]
        apply Finset.sum_le_sum
        intro b' hb'
        rw [(Finset.mem_filter.1 hb').2]
        exact legCount_pos.2 ⟨w, hw, rfl⟩
      refine le_trans h3 ?_
      unfold legCount
      rw [← Finset.card_biUnion]
      · apply Finset.card_le_card
        intro x hx
        obtain ⟨b', hb', hx⟩ := Finset.mem_biUnion.1 hx
        have hx := Finset.mem_filter.1 hx
        exact Finset.mem_filter.2 ⟨hsub b' (Finset.mem_filter.1 hb').1 hx.1, hx.2⟩
      · intro b1 hb1 b2 hb2 hne
        exact Finset.disjoint_filter_filter (hdis b1 (Finset.mem_filter.1 hb1).1 b2 (Finset.mem_filter.1 hb2).1 hne)
    have h5 := h3 y hyb
    rw [show y.cls = (y.op, y.space, true) by unfold Slot.cls; rw [hyc], legCount_slots hys.1 hys.2, if_pos rfl] at h5
    have h6 := h3 z hzb
    rw [show z.cls = (z.op, z.space, false) by unfold Slot.cls; rw [hzc], legCount_slots hzs.1 hzs.2, if_neg (by simp)] at h6
    by_contra hc
    rw [← hsp] at h6
    rcases h2 y.op z.op y.space hys.1 hzs.1 hop (by omega) (by omega) with h | h
    · exact ho h
    · exact hu h
  generalize hc : (S.filter (fun b' => legCount b' = legCount b)).card = c at hle ⊢
  have : c - 1 = 0 ∨ c - 1 = 1 := by omega
  rcases this with h | h <;> simp [h]

theorem noTriples_of_two {o : OSI} {ops : OperatorProduct} (h : ∀ p ∈ ops, ∀ s, p.gm.cre s ≤ 2) : NoTriples o ops := by
  intro i j s hi _ _ h3 _
  have := h (opAt ops i) (by unfold opAt; rw [List.getD_eq_getElem?_getD, List.getElem?_eq_getElem hi]; exact List.getElem_mem _) s
  omega

theorem spaceType_total {o : OSI} {s : Nat} (hs : s < o.spaces.length) : ∃ t, o.spaceType s = .ok t := by
  unfold OSI.spaceType OSI.space
  simp [hs]

/-- The condition `NoTriples` is exact: without it some scheme of contractions is counted twice by the code. -/
theorem triple_scheme {o : OSI} {m : Int} (hm : 1 ≤ m) {ops : OperatorProduct} (hvo : ∀ p ∈ ops, p.Valid o.spaces.length) (h : ¬ NoTriples o ops) :
    ∃ S, IsScheme o m ops 0 (totalOps o.spaces.length ops) S ∧ overcount S = 2 := by
  unfold NoTriples at h
  push Not at h
  obtain ⟨i, j, s, hi, hj, hij, hc, ha, ho, hu⟩ := h
  have hs : s < o.spaces.length := by
    by_contra hs
    have hv := hvo (opAt ops i) (by unfold opAt; rw [List.getD_eq_getElem?_getD, List.getElem?_eq_getElem hi]; exact List.getElem_mem _) s
    have := (hv.2.2 (by omega)).1
    omega
  let c : Nat → Slot := fun k => ⟨i, s, true, k⟩
  let a : Nat → Slot := fun k => ⟨j, s, false, k⟩
  let b : Nat → Finset Slot := fun k => {c k, a k}
  let S : Finset (Finset Slot) := (Finset.range 3).image b
  have hinj : ∀ k k', b k = b k' → k = k' := by
    intro k k' he
    have : c k ∈ b k' := by rw [← he]; simp [b]
    simp only [b, c, a, Finset.mem_insert, Finset.mem_singleton, Slot.mk.injEq] at this
    rcases this with h | h
    · exact h.2.2.2
    · exact absurd h.2.2.1 (by simp)
  have hca : ∀ k, c k ≠ a k := fun k h => by simp [c, a] at h
  have hcard : ∀ k, (b k).card = 2 := fun k => Finset.card_pair (hca k)
  have hleg : ∀ k, legCount (b k) = fun q => (if (i, s, true) = q then 1 else 0) + (if (j, s, false) = q then 1 else 0) := by
    intro k
    funext q
    unfold legCount
    rw [Finset.card_filter, Finset.sum_pair (hca k)]
  have hsum : (∑ x ∈ S, x.card) = 6 := by
    rw [Finset.sum_image (fun k _ k' _ h => hinj k k' h), Finset.sum_congr rfl (fun k _ => hcard k)]
    rfl
  refine ⟨S, ⟨?_, ?_, ?_, ?_, ?_⟩, ?_⟩
  · intro x hx y hy
    obtain ⟨k, hk, rfl⟩ := Finset.mem_image.1 hx
    rw [Finset.mem_range] at hk
    rw [List.mem_toFinset, mem_slots]
    simp only [b, Finset.mem_insert, Finset.mem_singleton] at hy
    rcases hy with rfl | rfl
    · refine ⟨hi, hs, ?_⟩
      simp only [c, if_true]; omega
    · refine ⟨hj, hs, ?_⟩
      simp only [a]; simp; omega
  · intro x hx
    obtain ⟨k, hk, rfl⟩ := Finset.mem_image.1 hx
    refine ⟨s, hs, ?_, ?_⟩
    · intro y hy
      simp only [b, Finset.mem_insert, Finset.mem_singleton] at hy
      rcases hy with rfl | rfl <;> rfl
    · obtain ⟨t, ht⟩ := spaceType_total hs
      cases t with
      | occupied =>
        left
        exact ⟨ht, c k, a k, rfl, rfl, rfl, by show i < j; have := ho ht; omega⟩
      | unoccupied =>
        right; left
        exact ⟨ht, a k, c k, Finset.pair_comm _ _, rfl, rfl, by show j < i; have := hu ht; omega⟩
      | general =>
        right; right
        have e1 : ((b k).filter (fun x => x.cre = true)) = {c k} := by
          ext x; simp only [b, Finset.mem_filter, Finset.mem_insert, Finset.mem_singleton]
          constructor
          · rintro ⟨rfl | rfl, h⟩
            · rfl
            · cases h
          · rintro rfl; exact ⟨Or.inl rfl, rfl⟩
        have e2 : ((b k).filter (fun x => x.cre = false)) = {a k} := by
          ext x; simp only [b, Finset.mem_filter, Finset.mem_insert, Finset.mem_singleton]
          constructor
          · rintro ⟨rfl | rfl, h⟩
            · cases h
            · rfl
          · rintro rfl; exact ⟨Or.inr rfl, rfl⟩
        rw [e1, e2]
        exact ⟨ht, by simp, by simp, by simpa using hm, c k, by simp [b], a k, by simp [b], hij⟩
  · intro x hx y hy hxy
    obtain ⟨k, _, rfl⟩ := Finset.mem_image.1 hx
    obtain ⟨k', _, rfl⟩ := Finset.mem_image.1 hy
    rw [Finset.disjoint_left]
    intro z hz hz'
    have hkk : k ≠ k' := fun h => hxy (by rw [h])
    simp only [b, c, a, Finset.mem_insert, Finset.mem_singleton] at hz hz'
    rcases hz with rfl | rfl <;> rcases hz' with h | h <;> simp at h <;> omega
  · have hle : (∑ x ∈ S, x.card) ≤ (slots o.spaces.length ops).length := by
      rw [hsum, ← List.toFinset_card_of_nodup (nodup_slots o.spaces.length ops)]
      have h1 := legCount_slots hi hs true
      have h2 := legCount_slots hj hs false
      unfold legCount at h1 h2
      rw [if_pos rfl] at h1
      rw [if_neg (by simp)] at h2
      have hd : Disjoint ((slots o.spaces.length ops).toFinset.filter (fun x => (x.op, x.space, x.cre) = (i, s, true)))
          ((slots o.spaces.length ops).toFinset.filter (fun x => (x.op, x.space, x.cre) = (j, s, false))) := by
        rw [Finset.disjoint_left]
        intro x hx hx'
        have e1 := (Finset.mem_filter.1 hx).2
        have e2 := (Finset.mem_filter.1 hx').2
        rw [e1] at e2; simp at e2
      have := Finset.card_le_card (Finset.union_subset (Finset.filter_subset _ _) (Finset.filter_subset _ _) :
        ((slots o.spaces.length ops).toFinset.filter (fun x => (x.op, x.space, x.cre) = (i, s, true))) ∪
          ((slots o.spaces.length ops).toFinset.filter (fun x => (x.op, x.space, x.cre) = (j, s, false))) ⊆ (slots o.spaces.length ops).toFinset)
      rw [Finset.card_union_of_disjoint hd, h1, h2] at this
      omega
    omega
  · rw [length_slots hvo]; omega
  · unfold overcount
    have him : S.image legCount = {legCount (b 0)} := by
      ext q
      rw [Finset.mem_image, Finset.mem_singleton]
      constructor
      · rintro ⟨x, hx, rfl⟩
        obtain ⟨k, _, rfl⟩ := Finset.mem_image.1 hx
        rw [hleg, hleg]
      · rintro rfl
        exact ⟨b 0, Finset.mem_image.2 ⟨0, by simp, rfl⟩, rfl⟩
    rw [him, Finset.prod_singleton, Finset.filter_true_of_mem (fun x hx => by
      obtain ⟨k, _, rfl⟩ := Finset.mem_image.1 hx
      rw [hleg, hleg]), Finset.card_image_of_injective _ (fun k k' h => hinj k k' h)]
    rfl

/-- **C53**: the weights of all schemes are one if and only if `NoTriples` holds. -/
theorem C53_weights_one_iff {o : OSI} {m : Int} (hm : 1 ≤ m) {ops : OperatorProduct} (hvo : ∀ p ∈ ops, p.Valid o.spaces.length) :
    (∀ S, IsScheme o m ops 0 (totalOps o.spaces.length ops) S → overcount S = 1) ↔ NoTriples o ops := by
  constructor
  · intro h
    by_contra hc
    obtain ⟨S, hS, h2⟩ := triple_scheme hm hvo hc
    have := h S hS
    omega
  · exact fun h S hS => overcount_one h hS

/-- **C53**, Wick's theorem: if no three alike contractions are possible (`NoTriples`: products in which at most one
factor has three or more creation or annihilation operators in one space, such as a two-body Hamiltonian times
coupled-cluster triples), the result is exactly `f · ∏ (factor of each
operator)` times the sum over all sets of disjoint contractions, each with weight one. Missing with respect to the
full claim: products in which three or more alike contractions are possible, for which it is false. -/
theorem C53_wick_partial {o : OSI} {cfg : WickCfg} {ops : OperatorProduct} (h8 : o.spaces.length ≤ 8)
    (hvo : ∀ p ∈ ops, p.Valid o.spaces.length) (h2 : NoTriples o ops) {f : Rational} (hf : Canon f) {minr maxr : Int} {e : Expr}
    (h : contract o cfg f ops minr maxr = .ok e) {v : OrbSystem Ω R A} (hv : v.Antisymmetric) (hac : v.Anticommute) :
    Lin.eval v.value e = (toRat f * (ops.map (fun p => toRat (p.factor o.spaces.length))).prod) •
      wickSum v o cfg.maxCumulant ops minr maxr (fun _ => 1) := by
  rw [C53_wick_weighted h8 hvo hf h hv hac]
  congr 1
  unfold wickSum
  apply sumOver_congr
  intro x _
  congr 1
  apply Finset.sum_congr rfl
  intro S hS
  rw [overcount_one h2 (mem_schemes.1 hS)]

end


section
variable {Ω R A : Type} [Inhabited Ω] [DecidableEq Ω] [CommRing R] [Ring A] [Algebra R A] [Algebra ℚ A]

/-- **C53** for operator expressions: the value of the result is the sum over the terms `c · ops` of the
expression of `f · c · ∏ (factor of the operators)` times the weighted sum of Wick's theorem for `ops`. -/
theorem C53_wick_expr_weighted {o : OSI} {cfg : WickCfg} {E : OpExpr} (h8 : o.spaces.length ≤ 8)
    (hvo : ∀ q ∈ E, ∀ p ∈ q.1, p.Valid o.spaces.length) (hE : ∀ q ∈ E, Canon q.2) {f : Rational} (hf : Canon f) {minr maxr : Int} {e : Expr}
    (h : contractExpr o cfg f E minr maxr = .ok e) {v : OrbSystem Ω R A} (hv : v.Antisymmetric) (hac : v.Anticommute) :
    Lin.eval v.value e = (E.map (fun q => (toRat f * toRat q.2 * (q.1.map (fun p => toRat (p.factor o.spaces.length))).prod) •
      wickSum v o cfg.maxCumulant q.1 minr maxr overcount)).sum := by
  have key : ∀ (E : OpExpr), (∀ q ∈ E, ∀ p ∈ q.1, p.Valid o.spaces.length) → (∀ q ∈ E, Canon q.2) → ∀ (acc e : Expr), Lin.Ok acc →
      E.foldlM (m := Except Fault) (init := acc) (fun result p => do
        let r ← contract o cfg (Rational.mul f p.2) p.1 minr maxr
        return Lin.plus result r) = .ok e →
      Lin.eval v.value e = Lin.eval v.value acc + (E.map (fun q => (toRat f * toRat q.2 * (q.1.map (fun p => toRat (p.factor o.spaces.length))).prod) •
      wickSum v o cfg.maxCumulant q.1 minr maxr overcount)).sum := by
    intro E
    induction E with
    | nil =>
      intro _ _ acc e _ he
      simp only [List.foldlM_nil, pure, Except.pure, Except.ok.injEq] at he
      subst he
      simp
    | cons q E ih =>
      intro hvo hE acc e hacc he
      rw [List.foldlM_cons] at he
      cases hc : contract o cfg (Rational.mul f q.2) q.1 minr maxr with
      | error x => rw [hc] at he; cases he
      | ok r =>
        rw [hc] at he
        simp only [bind, Except.bind, pure, Except.pure] at he
        have hq := canon_mul hf (hE q (by simp))
        obtain ⟨_, _, hw, _, _⟩ := contract_spec hq hc
        have hp := Lin.plus_spec hacc hw.toOk
        rw [ih (fun q hq => hvo q (by simp [hq])) (fun q hq => hE q (by simp [hq])) _ _ hp.1 he,
          Lin.eval_plus v.value (value_congr v) hacc hw.toOk,
          C53_wick_weighted h8 (hvo q (by simp)) hq hc hv hac, List.map_cons, List.sum_cons, toRat_mul, add_assoc]
  rw [key E hvo hE [] e Lin.ok_nil h, Lin.eval_nil, zero_add]

/-- **C53** for operator expressions in whose products no three alike contractions are possible. -/
theorem C53_wick_expr_partial {o : OSI} {cfg : WickCfg} {E : OpExpr} (h8 : o.spaces.length ≤ 8)
    (hvo : ∀ q ∈ E, ∀ p ∈ q.1, p.Valid o.spaces.length) (h2 : ∀ q ∈ E, NoTriples o q.1) (hE : ∀ q ∈ E, Canon q.2)
    {f : Rational} (hf : Canon f) {minr maxr : Int} {e : Expr}
    (h : contractExpr o cfg f E minr maxr = .ok e) {v : OrbSystem Ω R A} (hv : v.Antisymmetric) (hac : v.Anticommute) :
    Lin.eval v.value e = (E.map (fun q => (toRat f * toRat q.2 * (q.1.map (fun p => toRat (p.factor o.spaces.length))).prod) •
      wickSum v o cfg.maxCumulant q.1 minr maxr (fun _ => 1))).sum := by
  rw [C53_wick_expr_weighted h8 hvo hE hf h hv hac]
  congr 1
  apply List.map_congr_left
  intro q hq
  congr 1
  unfold wickSum
  apply sumOver_congr
  intro x _
  congr 1
  apply Finset.sum_congr rfl
  intro S hS
  rw [overcount_one (h2 q hq) (mem_schemes.1 hS)]
end

/-! ## A system that meets the hypotheses: Grassmann variables and antisymmetric tensors -/

/-- an antisymmetric function of any number of integers: the product of all differences -/
def vdm (l : List ℤ) : ℚ := pairProd (fun a b : ℤ => ((a : ℚ) - b)) l

theorem vdm_anti (pre : List ℤ) (a b : ℤ) (post : List ℤ) : vdm (pre ++ a :: b :: post) = - vdm (pre ++ b :: a :: post) := by
  unfold vdm
  induction pre with
  | nil => simp only [List.nil_append, pairProd, List.map_cons, List.prod_cons]; ring
  | cons x pre ih =>
    simp only [List.cons_append, pairProd, ih]
    rw [(((List.Perm.swap b a post).append_left pre).map (fun b : ℤ => ((x : ℚ) - b))).prod_eq]
    ring

/-- three orbitals per space and antisymmetric tensors -/
def vdmSys : OrbSystem ℤ ℚ ℚ := ⟨fun _ => {0, 1, 2}, fun _ l u => vdm l * vdm u, fun _ _ => 0⟩

theorem vdmSys_anti : vdmSys.Antisymmetric := by
  intro lab
  refine ⟨fun pre a b post u => ?_, fun l pre a b post => ?_⟩
  · show vdm _ * vdm u = -(vdm _ * vdm u)
    rw [vdm_anti]; ring
  · show vdm l * vdm _ = -(vdm l * vdm _)
    rw [vdm_anti]; ring

theorem vdmSys_comm : vdmSys.Anticommute := by intro s s' x y; show (0 : ℚ) * 0 = -(0 * 0); ring

/-- the same tensors with Grassmann variables `ψ†_x`, `ψ_x` for the operators -/
noncomputable def grSys : OrbSystem ℤ ℚ (ExteriorAlgebra ℚ (ℤ × Bool → ℚ)) :=
  ⟨fun _ => {0, 1, 2}, fun _ l u => vdm l * vdm u, fun s x => ExteriorAlgebra.ι ℚ (Pi.single (x, decide (s = .creation)) 1)⟩

theorem grSys_anti : grSys.Antisymmetric := vdmSys_anti
theorem grSys_comm : grSys.Anticommute := by
  intro s s' x y
  exact eq_neg_of_add_eq_zero_left (ExteriorAlgebra.ι_add_mul_swap _ _)

-- two-body operators in an occupied and an unoccupied space, with all ranks
example : ∃ e, contract exSR {} ⟨1, 2⟩ [mkOp "f" [(1, 0), (0, 1)], mkOp "t" [(0, 1), (1, 0)]] 0 4 = .ok e ∧ e.length = 4 ∧
    Lin.eval grSys.value e = ((1 : ℚ) / 2) • wickSum grSys exSR ({} : WickCfg).maxCumulant [mkOp "f" [(1, 0), (0, 1)], mkOp "t" [(0, 1), (1, 0)]] 0 4 (fun _ => 1) := by
  have h : (contract exSR {} ⟨1, 2⟩ [mkOp "f" [(1, 0), (0, 1)], mkOp "t" [(0, 1), (1, 0)]] 0 4).toOption.map List.length = some 4 := by decide +kernel
  cases hc : contract exSR {} ⟨1, 2⟩ [mkOp "f" [(1, 0), (0, 1)], mkOp "t" [(0, 1), (1, 0)]] 0 4 with
  | error e => rw [hc] at h; cases h
  | ok e =>
    rw [hc] at h
    refine ⟨e, rfl, by simpa [Except.toOption] using h, ?_⟩
    have hv : ∀ p ∈ [mkOp "f" [(1, 0), (0, 1)], mkOp "t" [(0, 1), (1, 0)]], p.Valid exSR.spaces.length := by
      intro p hp
      rcases List.mem_cons.1 hp with rfl | hp
      · exact mkOp_valid _ _ _ (by decide) (by simp)
      · rcases List.mem_cons.1 hp with rfl | hp
        · exact mkOp_valid _ _ _ (by decide) (by simp)
        · cases hp
    rw [C53_wick_partial (by decide) hv _ (by constructor <;> decide) hc grSys_anti grSys_comm]
    · congr 1
      have : ([mkOp "f" [(1, 0), (0, 1)], mkOp "t" [(0, 1), (1, 0)]].map (fun p => p.factor exSR.spaces.length)) = [⟨1, 1⟩, ⟨1, 1⟩] := by decide +kernel
      rw [show (fun p : Operator => toRat (p.factor exSR.spaces.length)) = toRat ∘ (fun p => p.factor exSR.spaces.length) from rfl, ← List.map_map, this]
      norm_num [toRat]
    · apply noTriples_of_two
      intro p hp s
      by_cases hs : s < 8
      · simp only [List.mem_cons, List.not_mem_nil, or_false] at hp
        rcases hp with rfl | rfl <;> interval_cases s <;> decide
      · have : p.gm.cre s = 0 := by
          simp only [List.mem_cons, List.not_mem_nil, or_false] at hp
          rcases hp with rfl | rfl <;> simp [mkOp, GraphMatrix.cre, gm_get_tab, hs]
        omega

/-! ## The weight is not 1 in general -/

/-- a three-body creation operator times a three-body annihilation operator of one occupied space -/
def exOps3 : OperatorProduct := [mkOp "v" [(3, 0)], mkOp "t" [(0, 3)]]

theorem exOps3_valid : ∀ p ∈ exOps3, p.Valid exO.spaces.length := by
  intro p hp
  rcases List.mem_cons.1 hp with rfl | hp
  · exact mkOp_valid _ _ _ (by decide) (by simp)
  · rcases List.mem_cons.1 hp with rfl | hp
    · exact mkOp_valid _ _ _ (by decide) (by simp)
    · cases hp

def exT3 : STerm := ⟨false, [], [⟨['t'], [], [⟨0, 0⟩, ⟨0, 1⟩, ⟨0, 2⟩], .antisymmetric, false⟩, ⟨['v'], [⟨0, 0⟩, ⟨0, 1⟩, ⟨0, 2⟩], [], .antisymmetric, false⟩]⟩
theorem exT3_value : vdmSys.value exT3 = 24 := by decide +kernel
theorem exOps3_contract : contract exO {} (Rational.ofInt 1) exOps3 0 0 = .ok [(exT3, ⟨1, 3⟩)] := by decide +kernel

theorem exOps3_overcount {S : Finset (Finset Slot)} {m : Int} (h : IsScheme exO m exOps3 0 0 S) : overcount S = 2 := by
  obtain ⟨hsub, hcon, hdis, hlo, hhi⟩ := h
  have hsl : (slots exO.spaces.length exOps3) = [⟨0,0,true,0⟩, ⟨0,0,true,1⟩, ⟨0,0,true,2⟩, ⟨1,0,false,2⟩, ⟨1,0,false,1⟩, ⟨1,0,false,0⟩] := by decide +kernel
  have hb : ∀ b ∈ S, b.card = 2 ∧ legCount b = fun k => (if k = (0, 0, true) then 1 else 0) + (if k = (1, 0, false) then 1 else 0) := by
    intro b hb
    obtain ⟨s, hs, hsp, h⟩ := hcon b hb
    have hs0 : s = 0 := by simp [exO] at hs; exact hs
    subst hs0
    have ht : exO.spaceType (0 : Nat) = .ok .occupied := by decide +kernel
    rw [ht] at h
    rcases h with ⟨_, c, a, rfl, hc, ha, hlt⟩ | ⟨h, _⟩ | ⟨h, _⟩
    · have hcm := hsub _ hb (by simp : c ∈ ({c, a} : Finset Slot))
      have ham := hsub _ hb (by simp : a ∈ ({c, a} : Finset Slot))
      have hne : c ≠ a := by intro h; rw [h] at hlt; exact absurd hlt (by omega)
      rw [hsl, List.mem_toFinset] at hcm ham
      have hc' : (c.op, c.space, c.cre) = (0, 0, true) := by
        simp only [List.mem_cons, List.not_mem_nil, or_false] at hcm
        rcases hcm with rfl | rfl | rfl | rfl | rfl | rfl <;> first | rfl | cases hc
      have ha' : (a.op, a.space, a.cre) = (1, 0, false) := by
        simp only [List.mem_cons, List.not_mem_nil, or_false] at ham
        rcases ham with rfl | rfl | rfl | rfl | rfl | rfl <;> first | rfl | cases ha
      refine ⟨Finset.card_pair hne, ?_⟩
      funext k
      unfold legCount
      rw [Finset.card_filter, Finset.sum_pair hne, hc', ha']
      simp only [eq_comm]
    · cases h
    · cases h
  have h6 : S.card = 3 := by
    rw [Finset.sum_congr rfl (fun b h => (hb b h).1), Finset.sum_const, hsl] at hlo hhi
    simp at hlo hhi
    omega
  have hne : S.Nonempty := Finset.card_pos.1 (by omega)
  unfold overcount
  have him : S.image legCount = {fun k => (if k = (0, 0, true) then 1 else 0) + (if k = (1, 0, false) then 1 else 0)} := by
    ext k
    rw [Finset.mem_image, Finset.mem_singleton]
    constructor
    · rintro ⟨b, hbS, rfl⟩; exact (hb b hbS).2
    · rintro rfl
      obtain ⟨b, hbS⟩ := hne
      exact ⟨b, hbS, (hb b hbS).2⟩
  rw [him, Finset.prod_singleton, Finset.filter_true_of_mem (fun b h => (hb b h).2), h6]
  rfl

/-- **C53**, negation in general: for a three-body creation operator times a three-body annihilation
operator the result is twice the sum of Wick's theorem, and not zero. -/
theorem C53_three_body_doubled :
    ∃ e, contract exO {} (Rational.ofInt 1) exOps3 0 0 = .ok e ∧
      Lin.eval vdmSys.value e = 2 • ((toRat (Rational.ofInt 1) * (exOps3.map (fun p => toRat (p.factor 1))).prod) •
        wickSum vdmSys exO ({} : WickCfg).maxCumulant exOps3 0 0 (fun _ => 1)) ∧
      Lin.eval vdmSys.value e ≠ 0 := by
  refine ⟨_, exOps3_contract, ?_, ?_⟩
  · rw [C53_wick_weighted (by decide) exOps3_valid (canon_ofInt 1) exOps3_contract vdmSys_anti vdmSys_comm, smul_comm 2]
    congr 1
    unfold wickSum
    rw [← sumOver_nsmul]
    apply sumOver_congr
    intro x _
    rw [smul_comm 2]
    congr 1
    rw [Finset.smul_sum]
    apply Finset.sum_congr rfl
    intro S hS
    rw [exOps3_overcount (mem_schemes.1 hS), one_smul]
  · simp only [Lin.eval, List.map_cons, List.map_nil, List.sum_cons, List.sum_nil, exT3_value]
    norm_num [toRat]
end Wick
end Wicked
