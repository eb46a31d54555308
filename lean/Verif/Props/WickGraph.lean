import Verif.Spec.Wick
import Verif.Proofs.WickTerm
import Verif.Props.WickLinear
/-! # The terms of `contract` (C44, C48, C49) and graph canonicalization (C14, C51, C52) -/
namespace Wicked
open CppLt CppEq Rational
namespace Wick

theorem composite_evalList {o : OSI} {cfg : WickCfg} {ops : OperatorProduct} {el : List EContr} (h8 : o.spaces.length ≤ 8)
    (hv : ∀ p ∈ ops, p.Valid o.spaces.length) (hel : elementaryContractions o cfg ops = .ok el) {minr maxr : Int} {cv : List Int}
    (hc : IsComposite o.spaces.length ops el minr maxr cv) : EvalList o ops (pickAt el cv) := by
  obtain ⟨el', h1, _, h3⟩ := elementary_spec (cfg := cfg) hv h8
  rw [hel] at h1; injection h1 with h1; subst h1
  refine ⟨fun e he => ?_, hc.avail⟩
  obtain ⟨c, hcm, rfl⟩ := List.mem_map.1 he
  have := hc.range c hcm
  exact elementary_evaluable ((h3 _).1 (elAt_mem (c := c) (by omega)))

theorem elementary_evalList {o : OSI} {m : Int} {ops : OperatorProduct} {cs : List EContr}
    (hcs : ∀ e ∈ cs, IsElementary o m ops e)
    (hav : ∀ A < ops.length, ∀ s < o.spaces.length, takenCre cs A s ≤ (opAt ops A).gm.cre s ∧ takenAnn cs A s ≤ (opAt ops A).gm.ann s) :
    EvalList o ops cs := ⟨fun e he => elementary_evaluable (hcs e he), hav⟩

/-- what a successful call of `contract` consists of -/
theorem contract_inv {o : OSI} {cfg : WickCfg} {ops : OperatorProduct} (h8 : o.spaces.length ≤ 8)
    (hv : ∀ p ∈ ops, p.Valid o.spaces.length) {f : Rational} (hf : Canon f) {minr maxr : Int} {e : Expr}
    (h : contract o cfg f ops minr maxr = .ok e) :
    ∃ el L, elementaryContractions o cfg ops = .ok el ∧ compositeContractions o.spaces.length ops el minr maxr = .ok L ∧
      L.Nodup ∧ (∀ cv, cv ∈ L ↔ IsComposite o.spaces.length ops el minr maxr cv) ∧
      ∃ rs, L.mapM (m := Except Fault) (fun cv => processOne o cfg ops (pickAt el cv) (Rational.ofInt 1)) = .ok rs ∧
        e = rs.foldl (fun m r => Lin.add m r.1 (Rational.mul f r.2)) [] := by
  obtain ⟨el, hel, _, _⟩ := elementary_spec (cfg := cfg) hv h8
  have hg := elementary_sizes h8 hv hel
  by_cases hsh : Shallow o.spaces.length ops el
  swap
  · unfold contract at h
    rw [hel] at h
    simp only [bind, Except.bind, (composite_spec hv h8 hg minr maxr).2 hsh] at h
    cases h
  obtain ⟨L, hL, _, hn, hm⟩ := (composite_spec hv h8 hg minr maxr).1 hsh
  refine ⟨el, L, hel, hL, hn, hm, ?_⟩
  rw [contract_eq _ _ _ _ _ hf] at h
  have hfil : L.filter (inWindow el ops minr maxr) = L := by
    rw [List.filter_eq_self]
    intro cv hcv
    have hc := (hm cv).1 hcv
    exact (inWindow_iff hv h8 (fun e he => (hg e he).1) hc.range minr maxr).2 hc.window
  unfold unitTerms at h
  rw [hel] at h
  have hpk : ∀ cv, pick el cv = pickAt el cv := fun _ => rfl
  simp only [bind, Except.bind, hL, hfil, hpk] at h
  cases hr : L.mapM (m := Except Fault) (fun cv => processOne o cfg ops (pickAt el cv) (Rational.ofInt 1)) with
  | error e => rw [hr] at h; cases h
  | ok rs =>
    rw [hr] at h
    simp only [pure, Except.pure] at h
    injection h with h
    exact ⟨rs, rfl, h.symm⟩

/-- every term returned by `contract` is a canonicalized listing -/
theorem contract_mem {o : OSI} {cfg : WickCfg} {ops : OperatorProduct} (h8 : o.spaces.length ≤ 8)
    (hv : ∀ p ∈ ops, p.Valid o.spaces.length) {f : Rational} (hf : Canon f) {minr maxr : Int} {e : Expr}
    (h : contract o cfg f ops minr maxr = .ok e) {p : STerm × Rational} (hp : p ∈ e) :
    ∃ t : STerm, t.Covered ∧ t.IndicesPair ∧ minr ≤ t.ops.length ∧ t.ops.length ≤ maxr ∧ ∃ f, t.canonicalize o = .ok (p.1, f) := by
  obtain ⟨el, L, hel, hL, hn, hm, rs, hrs, rfl⟩ := contract_inv h8 hv hf h
  refine Lin.mem_fold_add (fun k => ∃ t : STerm, t.Covered ∧ t.IndicesPair ∧ minr ≤ t.ops.length ∧ t.ops.length ≤ maxr ∧
    ∃ f, t.canonicalize o = .ok (k, f)) Prod.fst (fun r => Rational.mul f r.2) rs [] (by simp) ?_ p hp
  intro r hr
  obtain ⟨cv, hcv, hpo⟩ := forall₂_right ((mapM_ok_iff _ _ _).1 hrs) r hr
  have hc := (hm cv).1 hcv
  have hE := composite_evalList h8 hv hel hc
  obtain ⟨⟨gp, gc⟩, s, hA, hs, hE', hl, hpr⟩ := processOne_eq (cfg := cfg) h8 hv hE
  rw [hpr] at hpo
  simp only [bind, Except.bind] at hpo
  have hlen : ((restOps o (graphOps ops (gp, gc)) (graphContr (pickAt el cv) (gp, gc))).length : Int) =
      uncontracted o.spaces.length ops (pickAt el cv) :=
    (length_restOps h8 (valid_graphOps hv hA.ops) hE').trans (uncontracted_graph hA.ops hA.contr)
  have hw := hc.window
  have hopsl : (listTerm o (graphOps ops (gp, gc)) (blocksOf o (graphOps ops (gp, gc)) (graphContr (pickAt el cv) (gp, gc))) (restOps o (graphOps ops (gp, gc)) (graphContr (pickAt el cv) (gp, gc)))).ops.length =
      (restOps o (graphOps ops (gp, gc)) (graphContr (pickAt el cv) (gp, gc))).length := by
    simp [listTerm, STerm.reindex]
  refine ⟨_, listTerm_covered hl, listTerm_pair hl, by rw [hopsl]; omega, by rw [hopsl]; omega, ?_⟩
  cases hcn : (listTerm o (graphOps ops (gp, gc)) (blocksOf o (graphOps ops (gp, gc)) (graphContr (pickAt el cv) (gp, gc))) (restOps o (graphOps ops (gp, gc)) (graphContr (pickAt el cv) (gp, gc)))).canonicalize o with
  | error e => rw [hcn] at hpo; cases hpo
  | ok c =>
    rw [hcn] at hpo
    simp only [pure, Except.pure] at hpo
    injection hpo with hpo
    exact ⟨c.2, by rw [← hpo]⟩

/-! ## C44 -/

/-- **C44** (window): every term returned by `contract` contains between `minrank` and `maxrank`
second-quantized operators. -/
theorem C44_rank_window {o : OSI} {cfg : WickCfg} {ops : OperatorProduct} (h8 : o.spaces.length ≤ 8)
    (hv : ∀ p ∈ ops, p.Valid o.spaces.length) {f : Rational} (hf : Canon f) {minr maxr : Int} {e : Expr}
    (h : contract o cfg f ops minr maxr = .ok e) : ∀ p ∈ e, minr ≤ p.1.ops.length ∧ p.1.ops.length ≤ maxr := by
  intro p hp
  obtain ⟨t, hc, hi, h1, h2, f', hcn⟩ := contract_mem h8 hv hf h hp
  rw [(canonicalize_pair hc hi hcn).2]
  exact ⟨h1, h2⟩

/-! ## C49 -/

/-- **C49**: in every term returned by `contract` each index occurs exactly twice, once below and once
above: as a lower tensor index or on an annihilation operator, and as an upper tensor index or on a
creation operator. -/
theorem C49_indices_pair {o : OSI} {cfg : WickCfg} {ops : OperatorProduct} (h8 : o.spaces.length ≤ 8)
    (hv : ∀ p ∈ ops, p.Valid o.spaces.length) {f : Rational} (hf : Canon f) {minr maxr : Int} {e : Expr}
    (h : contract o cfg f ops minr maxr = .ok e) : ∀ p ∈ e, p.1.IndicesPair := by
  intro p hp
  obtain ⟨t, hc, hi, _, _, f', hcn⟩ := contract_mem h8 hv hf h hp
  exact (canonicalize_pair hc hi hcn).1

/-- **C44, C49** for operator expressions -/
theorem C49_indices_pair_expression {o : OSI} {cfg : WickCfg} {E : OpExpr} (h8 : o.spaces.length ≤ 8)
    (hv : ∀ q ∈ E, ∀ p ∈ q.1, p.Valid o.spaces.length) (hE : ∀ q ∈ E, Canon q.2) {f : Rational} (hf : Canon f) {minr maxr : Int} {e : Expr}
    (h : contractExpr o cfg f E minr maxr = .ok e) :
    ∀ p ∈ e, p.1.IndicesPair ∧ minr ≤ p.1.ops.length ∧ p.1.ops.length ≤ maxr := by
  rw [contractExpr_eq] at h
  cases hr : E.mapM (m := Except Fault) (fun p => contract o cfg (Rational.mul f p.2) p.1 minr maxr) with
  | error e' => rw [hr] at h; cases h
  | ok es =>
    rw [hr] at h
    simp only [bind, Except.bind, pure, Except.pure] at h
    injection h with h
    subst h
    have hall : ∀ e ∈ es, ∀ p ∈ e, p.1.IndicesPair ∧ minr ≤ p.1.ops.length ∧ (p.1.ops.length : Int) ≤ maxr := by
      intro e he p hp
      obtain ⟨q, hq, hqe⟩ := forall₂_right ((mapM_ok_iff _ _ _).1 hr) e he
      exact ⟨C49_indices_pair h8 (hv q hq) (canon_mul hf (hE q hq)) hqe p hp, C44_rank_window h8 (hv q hq) (canon_mul hf (hE q hq)) hqe p hp⟩
    have : ∀ (es : List Expr) (m : Expr), (∀ p ∈ m, p.1.IndicesPair ∧ minr ≤ p.1.ops.length ∧ (p.1.ops.length : Int) ≤ maxr) →
        (∀ e ∈ es, ∀ p ∈ e, p.1.IndicesPair ∧ minr ≤ p.1.ops.length ∧ (p.1.ops.length : Int) ≤ maxr) →
        ∀ p ∈ es.foldl (fun result e => Lin.plus result e) m, p.1.IndicesPair ∧ minr ≤ p.1.ops.length ∧ (p.1.ops.length : Int) ≤ maxr := by
      intro es
      induction es with
      | nil => intro m hm _; exact hm
      | cons e es ih =>
        intro m hm hes
        rw [List.foldl_cons]
        apply ih
        · exact Lin.mem_fold_add (fun k => k.IndicesPair ∧ minr ≤ k.ops.length ∧ (k.ops.length : Int) ≤ maxr) Prod.fst Prod.snd e m hm (hes e (by simp))
        · intro x hx; exact hes x (by simp [hx])
    exact this es [] (by simp) hall

-- non-trivial: `<f t>` has terms with 0, 2 and 4 operators
example : (∀ p ∈ exOpsFT, p.Valid exSR.spaces.length) ∧
    (contract exSR {} (Rational.ofInt 1) exOpsFT 0 4).toOption.map (fun e => e.map (fun p => p.1.ops.length)) = some [0, 2, 2, 4] := by
  refine ⟨?_, by decide +kernel⟩
  intro p hp
  simp only [exOpsFT, List.mem_cons, List.not_mem_nil, or_false] at hp
  rcases hp with rfl | rfl <;> exact mkOp_valid _ _ _ (by decide) (by simp)

/-! ## C48 -/

/-- **C48**: evaluating a contraction generated by steps 1 and 2, as it is or after graph
canonicalization, never fails; and the positions given to the second-quantized operators are a
permutation. -/
theorem C48_evaluate_ok {o : OSI} {cfg : WickCfg} {ops : OperatorProduct} {el : List EContr} (h8 : o.spaces.length ≤ 8)
    (hv : ∀ p ∈ ops, p.Valid o.spaces.length) (hel : elementaryContractions o cfg ops = .ok el) {minr maxr : Int} {cv : List Int}
    (hc : IsComposite o.spaces.length ops el minr maxr cv) :
    (∀ f, ∃ r, evaluate o ops (pickAt el cv) f = .ok r) ∧
    (∃ b, canonicalizeGraph o.spaces.length ops (pickAt el cv) = .ok b ∧ ∀ f, ∃ r, evaluate o b.1 b.2.1 f = .ok r) ∧
    (∃ tensors sqops opMap st, tensorsSqops o.spaces.length ops = .ok (tensors, sqops, opMap) ∧
      (pickAt el cv).foldlM (evalStep o sqops opMap)
        { off := List.replicate ops.length GraphMatrix.zero, pos := 0, ncontr := 0, usign := 1, map := [],
          order := List.replicate sqops.length (-1), tensors := tensors } = .ok st ∧
      IsPermOf sqops.length (orderRest o.spaces.length sqops (st.order, st.pos)).1) := by
  have hE := composite_evalList h8 hv hel hc
  have ok : ∀ {ops cs}, EvalList o ops cs → ∀ f, ∃ r, evaluate o ops cs f = .ok r := by
    intro ops cs hE f
    rw [evaluate_eq, (evalCore_listing h8 hE).2]
    exact ⟨_, rfl⟩
  refine ⟨ok hE, ?_, evalOrder_ok h8 hE⟩
  obtain ⟨g, s, hb, hA, _⟩ := canonicalizeGraph_ok h8 hE.ev (opAt_numOps_nonneg hv)
  exact ⟨_, hb, ok (evalList_graph hE hA.ops hA.contr)⟩

example : ∃ el, elementaryContractions exMR {} [mkOp "f" [(0, 0), (1, 1)], mkOp "g" [(0, 0), (1, 1)]] = .ok el ∧
    compositeContractions 3 [mkOp "f" [(0, 0), (1, 1)], mkOp "g" [(0, 0), (1, 1)]] el 0 0 = .ok [[0, 1], [2]] :=
  ⟨_, rfl, by decide +kernel⟩

/-- **C48** (whole computation): if no composite contraction has more than 100 elementary ones and no space occurs
more than 32 times, `contract` returns an expression. -/
theorem C48_contract_returns {o : OSI} {cfg : WickCfg} {ops : OperatorProduct} (h8 : o.spaces.length ≤ 8)
    (hv : ∀ p ∈ ops, p.Valid o.spaces.length) (hsz : totalOps o.spaces.length ops ≤ 201)
    (h32 : ∀ s < o.spaces.length, spaceOps ops s ≤ 32) {f : Rational} (hf : Canon f) (minr maxr : Int) :
    ∃ e, contract o cfg f ops minr maxr = .ok e := by
  obtain ⟨el, hel, _, _⟩ := elementary_spec (cfg := cfg) hv h8
  have hg := elementary_sizes h8 hv hel
  obtain ⟨L, hL, _, hn, hm⟩ := (composite_spec hv h8 hg minr maxr).1 (shallow_of_size hv h8 hg hsz)
  have hok : ∀ cv ∈ L.filter (inWindow el ops minr maxr), ∃ r, processOne o cfg ops (pick el cv) (Rational.ofInt 1) = .ok r := by
    intro cv hcv
    have hE := composite_evalList h8 hv hel ((hm cv).1 (List.mem_filter.1 hcv).1)
    obtain ⟨⟨gp, gc⟩, s, hA, hs, hE', hl, hpr⟩ := processOne_eq (cfg := cfg) h8 hv hE
    change ∃ r, processOne o cfg ops (pickAt el cv) (Rational.ofInt 1) = .ok r
    rw [hpr]
    obtain ⟨c, hc⟩ := (C34_no_ub_partial (listTerm_registered hl) (listTerm_occ32 (valid_graphOps hv hA.ops) hl (by
      intro s hs
      have := h32 s hs
      unfold spaceOps at this
      rw [((perm_graphOps hA.ops).map (fun p => p.gm.cre s + p.gm.ann s)).sum_eq]
      exact this))).2 (fun x hx => by rw [listTerm_symm hl x hx]; simp)
    rw [hc]
    exact ⟨_, rfl⟩
  obtain ⟨rs, hrs⟩ := mapM_ok_of (fun cv => processOne o cfg ops (pick el cv) (Rational.ofInt 1)) _ hok
  have hu : unitTerms o cfg ops minr maxr = .ok rs := by
    unfold unitTerms
    rw [hel]
    simp only [bind, Except.bind, hL]
    exact hrs
  exact contract_ok hu hf

example : totalOps exSR.spaces.length exOpsFT ≤ 201 ∧ ∀ s < exSR.spaces.length, spaceOps exOpsFT s ≤ 32 := by decide +kernel

/-! ## C51 -/

/-- **C51** (acceptance): a permutation of the operators is accepted exactly when no exchanged pair of
operators is joined by a contraction of two second-quantized operators, and its sign is the product of
`(-1)^(n_a n_b)` over the exchanged pairs. -/
theorem C51_permutation_accepted {o : OSI} {m : Int} {ops : OperatorProduct} (h8 : o.spaces.length ≤ 8)
    (hv : ∀ p ∈ ops, p.Valid o.spaces.length) {cs : List EContr} (hcs : ∀ e ∈ cs, IsElementary o m ops e)
    {p : List Int} (hp : IsPermOf ops.length p) :
    ((opsPermValid ops p (fun i j => contractionsCommute o.spaces.length i j cs)).isSome = true ↔
      ∀ a b, Exchanged p a b → ¬ PairJoined o.spaces.length cs a.toNat b.toNat) ∧
    (∀ s, opsPermValid ops p (fun i j => contractionsCommute o.spaces.length i j cs) = some s →
      toRat s = ((exchangeSign (fun i => (opAt ops i.toNat).numOps) p : Int) : ℚ)) := by
  have h := opsPermValid_iff h8 (fun e he => elementary_evaluable (hcs e he)) (opAt_numOps_nonneg hv) hp
  cases hc : opsPermValid ops p (fun i j => contractionsCommute o.spaces.length i j cs) with
  | none =>
    rw [hc] at h
    simp only at h
    refine ⟨?_, fun s hs => by cases hs⟩
    simp only [Option.isSome_none, Bool.false_eq_true, false_iff]
    exact h
  | some s =>
    rw [hc] at h
    simp only at h
    refine ⟨by simpa using h.1, fun s' hs' => ?_⟩
    injection hs' with hs'
    rw [← hs']; exact h.2

/-- **C51**: `canonicalize_contraction_graph` succeeds and returns the operators and the contractions
permuted consistently, with no pair of operators exchanged that is joined by a pair contraction, and
with the sign `∏ (-1)^(n_i n_j)` over the exchanged pairs. -/
theorem C51_graph_sound {o : OSI} {m : Int} {ops : OperatorProduct} (h8 : o.spaces.length ≤ 8)
    (hv : ∀ p ∈ ops, p.Valid o.spaces.length) {cs : List EContr} (hcs : ∀ e ∈ cs, IsElementary o m ops e) :
    ∃ (p c : List Int) (s : Rational), IsPermOf ops.length p ∧ IsPermOf cs.length c ∧
      canonicalizeGraph o.spaces.length ops cs = .ok
        (p.map (fun i => opAt ops i.toNat), c.map (fun j => p.map (fun i => gmAt (cs.getD j.toNat []) i.toNat)), s) ∧
      (∀ a b, Exchanged p a b → ¬ PairJoined o.spaces.length cs a.toNat b.toNat) ∧
      toRat s = ((exchangeSign (fun i => (opAt ops i.toNat).numOps) p : Int) : ℚ) := by
  obtain ⟨⟨p, c⟩, s, h1, h2, h3⟩ := canonicalizeGraph_ok h8 (fun e he => elementary_evaluable (hcs e he)) (opAt_numOps_nonneg hv)
  exact ⟨p, c, s, h2.ops, h2.contr, h1, h2.exch, h3⟩

/-! ## C52 and C14 -/

/-- **C52** (minimal representative): among all admissible rearrangements (operators and contractions
permuted, no pair-joined operators exchanged) the returned one has the least operator list, and among
those with that operator list the greatest list of contractions. -/
theorem C52_minimal_partial {o : OSI} {m : Int} {ops : OperatorProduct} (h8 : o.spaces.length ≤ 8)
    (hv : ∀ p ∈ ops, p.Valid o.spaces.length) {cs : List EContr} (hcs : ∀ e ∈ cs, IsElementary o m ops e) {r}
    (hr : canonicalizeGraph o.spaces.length ops cs = .ok r) {g : Graph} (hg : Admissible o.spaces.length ops cs g) :
    lt (graphOps ops g) r.1 = false ∧ (graphOps ops g = r.1 → lt r.2.1 (graphContr cs g) = false) := by
  have h := (canonicalizeGraph_min h8 (fun e he => elementary_evaluable (hcs e he)) (opAt_numOps_nonneg hv) hr).2 g hg
  have e : lt (gkey ops cs g) (r.1, (⟨r.2.1⟩ : Rev CContr)) =
      (lt (graphOps ops g) r.1 || (!lt r.1 (graphOps ops g) && lt r.2.1 (graphContr cs g))) := rfl
  rw [e, Bool.or_eq_false_iff] at h
  refine ⟨h.1, fun he => ?_⟩
  have h2 := h.2
  rw [he, StrictWeak.irrefl] at h2
  simpa using h2

/-- **C52** (representative): two contractions that are admissible rearrangements of each other get the
same operators and the same contractions. -/
theorem C52_representative_partial {o : OSI} {m : Int} {ops : OperatorProduct} (h8 : o.spaces.length ≤ 8)
    (hv : ∀ p ∈ ops, p.Valid o.spaces.length) {cs : List EContr} (hcs : ∀ e ∈ cs, IsElementary o m ops e)
    {g : Graph} (hg : Admissible o.spaces.length ops cs g) {r r'}
    (hr : canonicalizeGraph o.spaces.length ops cs = .ok r)
    (hr' : canonicalizeGraph o.spaces.length (graphOps ops g) (graphContr cs g) = .ok r') :
    r'.1 = r.1 ∧ r'.2.1 = r.2.1 := by
  rcases g with ⟨p, c⟩
  have hev : ∀ e ∈ cs, Evaluable o ops.length e := fun e he => elementary_evaluable (hcs e he)
  have hlen : ∀ e ∈ cs, e.length = ops.length := fun e he => evaluable_len (hev e he)
  have hev' : ∀ e ∈ graphContr cs (p, c), Evaluable o (graphOps ops (p, c)).length e := by
    intro e he
    rw [length_graphOps hg.ops]
    rw [(graphContr_perm hg.contr).mem_iff] at he
    obtain ⟨e', he', rfl⟩ := List.mem_map.1 he
    exact evaluable_row (hev e' he') hg.ops
  obtain ⟨⟨g1, a1, b1, c1⟩, m1⟩ := canonicalizeGraph_min h8 hev (opAt_numOps_nonneg hv) hr
  obtain ⟨⟨g2, a2, b2, c2⟩, m2⟩ := canonicalizeGraph_min h8 hev' (opAt_numOps_nonneg (valid_graphOps hv hg.ops)) hr'
  -- the second representative seen from the first graph
  have h2 := m1 _ (admissible_comp hlen hg a2)
  -- the first representative seen from the second graph
  have h1 := m2 _ (admissible_quot hlen hg a1)
  rcases g1 with ⟨p1, d1⟩
  rcases g2 with ⟨p2, d2⟩
  have hl2 : IsPermOf ops.length p2 := by have := a2.ops; rw [length_graphOps hg.ops] at this; exact this
  have hlc : (graphContr cs (p, c)).length = cs.length := by have := len_perm hg.contr; simp [graphContr]; exact this
  have hl2' : IsPermOf cs.length d2 := by have := a2.contr; rw [hlc] at this; exact this
  have k2 : gkey ops cs (pcomp p p2, pcomp c d2) = (r'.1, (⟨r'.2.1⟩ : Rev CContr)) := by
    unfold gkey
    rw [b2, c2, graphOps_comp hg.ops hl2, graphContr_comp hg.ops hg.contr hl2 hl2']
  have k1 : gkey (graphOps ops (p, c)) (graphContr cs (p, c)) (pquot p p1, pquot c d1) = (r.1, (⟨r.2.1⟩ : Rev CContr)) := by
    unfold gkey
    rw [b1, c1, graphOps_comp hg.ops (isPermOf_pquot hg.ops a1.ops),
      graphContr_comp hg.ops hg.contr (isPermOf_pquot hg.ops a1.ops) (isPermOf_pquot hg.contr a1.contr),
      pcomp_pquot hg.ops a1.ops, pcomp_pquot hg.contr a1.contr]
  simp only at h1 h2
  rw [k1] at h1
  rw [k2] at h2
  have := StrictTotal.conn _ _ h1 h2
  rw [Prod.mk.injEq, Rev.mk.injEq] at this
  exact ⟨this.1.symm, this.2.symm⟩

-- `v t t` with one contraction of each `t` with `v`: exchanging the two `t` is admissible, moving `v` is not
/-- example: `v^{oo}_{vv} t^{v}_{o} t^{v}_{o}` -/
def exVTT : OperatorProduct := [mkOp "v" [(2, 0), (0, 2)], mkOp "t" [(0, 1), (1, 0)], mkOp "t" [(0, 1), (1, 0)]]
example : ∃ el, elementaryContractions exSR {} exVTT = .ok el ∧ el.length = 4 ∧
    (opsPermValid exVTT [0, 2, 1] (fun i j => contractionsCommute 2 i j (pickAt el [0, 1]))).isSome = true ∧
    (opsPermValid exVTT [1, 0, 2] (fun i j => contractionsCommute 2 i j (pickAt el [0, 1]))).isSome = false :=
  ⟨_, rfl, by decide +kernel, by decide +kernel, by decide +kernel⟩

/-- **C52**, negation of the last clause: for a product of two equal odd operators there are two
rearrangements that `graph_less` cannot tell apart but that carry opposite signs, so the sign of the
result depends on how `std::sort` orders them. -/
theorem C52_tie_sign : ∃ (ops : OperatorProduct) (cs : List EContr) (g g' : Graph) (s s' : Rational),
    (∀ p ∈ ops, p.Valid exO.spaces.length) ∧ (∀ e ∈ cs, IsElementary exO 100 ops e) ∧
    (g, s) ∈ graphs exO.spaces.length ops cs ∧ (g', s') ∈ graphs exO.spaces.length ops cs ∧
    graphLess ops cs g g' = false ∧ graphLess ops cs g' g = false ∧ toRat s = 1 ∧ toRat s' = -1 := by
  refine ⟨[mkOp "x" [(1, 0)], mkOp "x" [(1, 0)]], [], ([0, 1], []), ([1, 0], []), ⟨1, 1⟩, ⟨-1, 1⟩, ?_, by simp,
    by decide +kernel, by decide +kernel, by decide +kernel, by decide +kernel, by simp [toRat], by simp [toRat]⟩
  intro p hp
  simp only [List.mem_cons, List.not_mem_nil, or_false, or_self] at hp
  subst hp
  exact mkOp_valid _ _ _ (by decide) (by simp)

/-- **C14** (`graph_less`): on the rearrangements of one contraction it is irreflexive, transitive, and
incomparability is transitive; two rearrangements are incomparable exactly when they have the same
operators and the same contractions. -/
theorem C14_graph_less (ns : Nat) (ops : OperatorProduct) (cs : List EContr) {f g h : Graph}
    (hf : Admissible ns ops cs f) (hg : Admissible ns ops cs g) (hh : Admissible ns ops cs h) :
    graphLess ops cs f f = false ∧
    (graphLess ops cs f g = true → graphLess ops cs g h = true → graphLess ops cs f h = true) ∧
    (graphLess ops cs f g = false → graphLess ops cs g f = false → graphLess ops cs g h = false → graphLess ops cs h g = false →
      graphLess ops cs f h = false ∧ graphLess ops cs h f = false) ∧
    ((graphLess ops cs f g = false ∧ graphLess ops cs g f = false) ↔
      graphOps ops f = graphOps ops g ∧ graphContr cs f = graphContr cs g) := by
  have key : ∀ {a b : Graph}, Admissible ns ops cs a → Admissible ns ops cs b → graphLess ops cs a b = lt (gkey ops cs a) (gkey ops cs b) :=
    fun ha hb => graphLess_eq (admissible_len ha).1 (admissible_len hb).1 (admissible_len ha).2 (admissible_len hb).2
  rw [key hf hf, key hf hg, key hg hh, key hf hh, key hg hf, key hh hg, key hh hf]
  refine ⟨StrictWeak.irrefl _, StrictWeak.trans _ _ _, StrictWeak.incomp _ _ _, ?_⟩
  constructor
  · rintro ⟨h1, h2⟩
    have := StrictTotal.conn _ _ h1 h2
    unfold gkey at this
    rw [Prod.mk.injEq, Rev.mk.injEq] at this
    exact this
  · rintro ⟨h1, h2⟩
    have : gkey ops cs f = gkey ops cs g := by unfold gkey; rw [h1, h2]
    rw [this]
    exact ⟨StrictWeak.irrefl _, StrictWeak.irrefl _⟩

end Wick
end Wicked
