import Verif.Spec.OpMake
import Verif.Model.GenOp
import Verif.Proofs.GM
import Verif.Proofs.Lin
import Verif.Proofs.TermOrder
import Verif.Props.Registry
import Verif.Props.Wick
/-! # Building operators: C37 (`op`), C38 (`gen_op`), C54 (at most 8 spaces) -/
namespace Wicked
open CppLt Rational OpExpr

/-! ## Counting -/

theorem bump_ok {v : List Int} {s : Nat} (h : s < v.length) : bump v (s : Int) = .ok (v.modify s (· + 1)) := by
  unfold bump; rw [if_pos ⟨by omega, by simpa using h⟩]; simp

theorem getD_modify (v : List Int) (s t : Nat) (h : s < v.length) :
    (v.modify s (· + 1)).getD t 0 = v.getD t 0 + if t = s then 1 else 0 := by
  simp only [List.getD_eq_getElem?_getD, List.getElem?_modify]
  by_cases hts : s = t
  · subst hts; simp [h]
  · rw [if_neg (fun h => hts h.symm)]; simp [hts]

/-- the counting loop of `op` -/
theorem countOps_loop {o : OSI} (l : Component) (hl : l.Registered o) : ∀ (c a : List Int), c.length = o.spaces.length →
    a.length = o.spaces.length →
    ∃ c' a', l.foldlM (fun st e => do
        let s ← o.labelToSpace e.1
        if e.2 then do let c ← bump st.1 s; return (c, st.2)
        else do let a ← bump st.2 s; return (st.1, a)) (c, a) = (.ok (c', a') : Res _) ∧
      c'.length = o.spaces.length ∧ a'.length = o.spaces.length ∧
      (∀ s, c'.getD s 0 = c.getD s 0 + l.count o true s) ∧ (∀ s, a'.getD s 0 = a.getD s 0 + l.count o false s) := by
  induction l with
  | nil => intro c a hc ha; exact ⟨c, a, rfl, hc, ha, by simp [Component.count], by simp [Component.count]⟩
  | cons x l ih =>
    intro c a hc ha
    obtain ⟨s, hs, hx⟩ := hl x (by simp)
    obtain ⟨xc, xb⟩ := x
    have hl' : Component.Registered o l := fun y hy => hl y (by simp [hy])
    have hcount : ∀ b t, Component.count o ((xc, xb) :: l) b t =
        Component.count o l b t + if t = s ∧ xb = b then 1 else 0 := by
      intro b t
      simp only [] at hx
      have h1 : o.labelToSpace xc = .ok (t : Int) ↔ t = s := by
        rw [hx]; simp only [Except.ok.injEq]; omega
      unfold Component.count
      rw [List.filter_cons]
      simp only [h1, Bool.and_eq_true, beq_iff_eq, decide_eq_true_eq, and_comm]
      split <;> simp
    simp only [List.foldlM_cons, hx]
    cases xb with
    | true =>
      simp only [if_true, bind, Except.bind]
      rw [bump_ok (by omega)]
      obtain ⟨c', a', h1, h2, h3, h4, h5⟩ := ih hl' (c.modify s (· + 1)) a (by simpa using hc) ha
      refine ⟨c', a', h1, h2, h3, fun t => ?_, fun t => ?_⟩
      · rw [h4, hcount, getD_modify _ _ _ (by omega)]; simp only [and_true]; omega
      · rw [h5, hcount]; simp
    | false =>
      simp only [if_false, bind, Except.bind, Bool.false_eq_true]
      rw [bump_ok (by omega)]
      obtain ⟨c', a', h1, h2, h3, h4, h5⟩ := ih hl' c (a.modify s (· + 1)) hc (by simpa using ha)
      refine ⟨c', a', h1, h2, h3, fun t => ?_, fun t => ?_⟩
      · rw [h4, hcount]; simp
      · rw [h5, hcount, getD_modify _ _ _ (by omega)]; simp only [and_true]; omega

theorem count_big {o : OSI} {l : Component} (hl : l.Registered o) (b : Bool) {s : Nat} (hs : o.spaces.length ≤ s) :
    l.count o b s = 0 := by
  unfold Component.count
  rw [List.filter_eq_nil_iff.2]
  · rfl
  · intro x hx
    obtain ⟨t, ht, h⟩ := hl x hx
    rw [h]
    simp only [Except.ok.injEq, Bool.and_eq_true, beq_iff_eq, decide_eq_true_eq, not_and]
    omega

theorem countOps_mk2 {o : OSI} {l : Component} (hl : l.Registered o) (h8 : o.spaces.length ≤ 8) (label : Str) :
    ∃ ca, countOps o l = .ok ca ∧ GraphMatrix.mk2 o.spaces.length ca.1 ca.2 = .ok (l.operator o label).gm := by
  obtain ⟨c, a, h1, h2, h3, h4, h5⟩ := countOps_loop l hl (List.replicate o.spaces.length 0)
    (List.replicate o.spaces.length 0) (by simp) (by simp)
  refine ⟨(c, a), h1, ?_⟩
  unfold GraphMatrix.mk2
  rw [if_pos ⟨h8, by simp only []; omega, by simp only []; omega⟩]
  congr 1
  unfold Component.operator
  simp only []
  congr 1
  funext i
  have hz : ∀ s, (List.replicate o.spaces.length (0 : Int)).getD s 0 = 0 := by
    intro s; simp only [List.getD_eq_getElem?_getD, List.getElem?_replicate]; split <;> rfl
  split
  · rw [h4, h5, hz]; simp
  · rw [count_big hl true (by omega), count_big hl false (by omega)]

theorem countOps_mk2_ub {o : OSI} {l : Component} (hl : l.Registered o) (h8 : 8 < o.spaces.length) :
    ∃ ca, countOps o l = .ok ca ∧ GraphMatrix.mk2 o.spaces.length ca.1 ca.2 = .error .ub := by
  obtain ⟨c, a, h1, h2, h3, h4, h5⟩ := countOps_loop l hl (List.replicate o.spaces.length 0)
    (List.replicate o.spaces.length 0) (by simp) (by simp)
  refine ⟨(c, a), h1, ?_⟩
  unfold GraphMatrix.mk2
  rw [if_neg]
  rintro ⟨h, _⟩
  change o.spaces.length ≤ 8 at h
  omega

/-! ## C37 -/

/-- the loop of `op`, with the operators named -/
theorem make_loop {o : OSI} (h8 : o.spaces.length ≤ 8) (label : Str) (unique : Bool) (cs : List Str)
    (hr : ∀ c ∈ cs, Component.Registered o (findOps c)) : ∀ e : OpExpr,
    cs.foldlM (fun r s => do
      let ca ← countOps o (findOps s)
      let g ← GraphMatrix.mk2 o.spaces.length ca.1 ca.2
      let op : Operator := ⟨label, g⟩
      if unique && Lin.contains r [op] then return r
      return Lin.add r [op] (Rational.mk2 1 1)) e =
    (.ok (cs.foldl (fun r s =>
      if unique && Lin.contains r [Component.operator o label (findOps s)] then r
      else Lin.add r [Component.operator o label (findOps s)] (Rational.mk2 1 1)) e) : Res OpExpr) := by
  induction cs with
  | nil => intro e; rfl
  | cons c cs ih =>
    intro e
    obtain ⟨ca, h1, h2⟩ := countOps_mk2 (hr c (by simp)) h8 label
    simp only [List.foldlM_cons, List.foldl_cons, h1, bind, Except.bind, h2]
    have hop : (⟨label, (Component.operator o label (findOps c)).gm⟩ : Operator) = Component.operator o label (findOps c) := rfl
    rw [hop]
    have ih' := fun e => ih (fun c hc => hr c (by simp [hc])) e
    simp only [bind, Except.bind] at ih'
    by_cases hc : (unique && Lin.contains e [Component.operator o label (findOps c)]) = true
    · rw [if_pos hc, if_pos hc]; exact ih' e
    · rw [if_neg hc, if_neg hc]; exact ih' _

theorem canon_one : Canon (Rational.mk2 1 1) := canon_mk2 _ _ (by decide)
theorem toRat_one' : toRat (Rational.mk2 1 1) = 1 := by rw [toRat_mk2]; norm_num

theorem unique_fold {o : OSI} (label : Str) (cs : List Str) : ∀ e : OpExpr, Lin.WF e → (∀ k, Lin.coef e k = 0 ∨ Lin.coef e k = 1) →
    let r := cs.foldl (fun r s => if true && Lin.contains r [Component.operator o label (findOps s)] then r
      else Lin.add r [Component.operator o label (findOps s)] (Rational.mk2 1 1)) e
    Lin.WF r ∧ ∀ k, Lin.coef r k = if Lin.coef e k = 1 ∨ ∃ c ∈ cs, k = [Component.operator o label (findOps c)] then 1 else 0 := by
  induction cs with
  | nil =>
    intro e he hk
    refine ⟨he, fun k => ?_⟩
    rcases hk k with h | h <;> simp [h]
  | cons c cs ih =>
    intro e he hk
    simp only [List.foldl_cons, Bool.true_and]
    have hcont : Lin.contains e [Component.operator o label (findOps c)] = true ↔
        Lin.coef e [Component.operator o label (findOps c)] = 1 := by
      constructor
      · intro h
        unfold Lin.contains at h
        rcases hf : SMap.find [Component.operator o label (findOps c)] e with _ | v
        · rw [hf] at h; cases h
        · rcases hk [Component.operator o label (findOps c)] with h0 | h1
          · exfalso
            obtain ⟨q, hq, h1, h2⟩ := SMap.find_some_mem hf
            have := he.nonzero q hq
            unfold Lin.coef at h0
            rw [hf] at h0
            simp only [Option.map_some, Option.getD_some] at h0
            rw [h2] at this
            exact this h0
          · exact h1
      · intro h
        unfold Lin.contains
        rcases hf : SMap.find [Component.operator o label (findOps c)] e with _ | v
        · unfold Lin.coef at h; rw [hf] at h; simp at h
        · rfl
    split
    · rename_i h
      rw [hcont] at h
      obtain ⟨h1, h2⟩ := ih e he hk
      simp only [Bool.true_and] at h1 h2
      refine ⟨h1, fun k => ?_⟩
      rw [h2 k]
      congr 1
      rw [eq_iff_iff]
      constructor
      · rintro (h | ⟨d, hd, e⟩)
        · exact Or.inl h
        · exact Or.inr ⟨d, by simp [hd], e⟩
      · rintro (h' | ⟨d, hd, e⟩)
        · exact Or.inl h'
        · rcases List.mem_cons.1 hd with rfl | hd
          · rw [e]; exact Or.inl h
          · exact Or.inr ⟨d, hd, e⟩
    · rename_i h
      rw [hcont] at h
      have h0 : Lin.coef e [Component.operator o label (findOps c)] = 0 := by
        rcases hk [Component.operator o label (findOps c)] with h' | h'
        · exact h'
        · exact absurd h' h
      have hco : ∀ k, Lin.coef (Lin.add e [Component.operator o label (findOps c)] (Rational.mk2 1 1)) k =
          if k = [Component.operator o label (findOps c)] then 1 else Lin.coef e k := by
        intro k
        rw [Lin.coef_add he.toOk _ _ canon_one]
        by_cases hk' : k = [Component.operator o label (findOps c)]
        · rw [if_pos hk', hk', if_pos (eqv_refl _), h0, toRat_one']; norm_num
        · rw [if_neg hk', if_neg (fun hh => hk' (eqv_eq.1 hh).symm), add_zero]
      obtain ⟨h1, h2⟩ := ih (Lin.add e [Component.operator o label (findOps c)] (Rational.mk2 1 1)) (Lin.wf_add he _ canon_one)
        (fun k => by rw [hco]; split; exact Or.inr rfl; exact hk k)
      simp only [Bool.true_and] at h1 h2
      refine ⟨h1, fun k => ?_⟩
      rw [h2 k, hco]
      congr 1
      rw [eq_iff_iff]
      constructor
      · rintro (h | ⟨d, hd, e⟩)
        · split at h
          · rename_i hk'; exact Or.inr ⟨c, by simp, hk'⟩
          · exact Or.inl h
        · exact Or.inr ⟨d, by simp [hd], e⟩
      · rintro (h' | ⟨d, hd, e⟩)
        · refine Or.inl ?_; split; rfl; exact h'
        · rcases List.mem_cons.1 hd with rfl | hd
          · exact Or.inl (if_pos e)
          · exact Or.inr ⟨d, hd, e⟩

/-- **C37**: `op(label, components)` succeeds when all letters are labels of registered spaces; the coefficient of an
operator is the number of components with its numbers of creation and annihilation operators per space (with
`unique=True`: 1 if there is such a component); nothing else is in the result. -/
theorem C37_op_counts {o : OSI} (h8 : o.spaces.length ≤ 8) (label : Str) (cs : List Str)
    (hr : ∀ c ∈ cs, Component.Registered o (findOps c)) :
    (∃ e, OpExpr.make o label cs false = .ok e ∧ Lin.WF e ∧
      ∀ k : OperatorProduct, Lin.coef e k =
        ((cs.filter (fun c => decide (k = [Component.operator o label (findOps c)]))).length : ℚ)) ∧
    ∃ e, OpExpr.make o label cs true = .ok e ∧ Lin.WF e ∧
      ∀ k : OperatorProduct, Lin.coef e k =
        if ∃ c ∈ cs, k = [Component.operator o label (findOps c)] then 1 else 0 := by
  constructor
  · refine ⟨_, make_loop h8 label false cs hr [], ?_⟩
    simp only [Bool.false_and, Bool.false_eq_true, if_false]
    obtain ⟨_, h2, h3⟩ := Lin.fold_add cs (fun s => [Component.operator o label (findOps s)]) (fun _ => Rational.mk2 1 1)
      (fun _ _ => canon_one) ([] : OpExpr) Lin.ok_nil
    refine ⟨h2 Lin.wf_nil, fun k => ?_⟩
    rw [h3 k, Lin.coef_nil, zero_add]
    clear h2 h3 hr
    rename_i hok; clear hok
    induction cs with
    | nil => simp
    | cons c cs ih =>
      rw [List.map_cons, List.sum_cons, ih, List.filter_cons]
      by_cases hk : k = [Component.operator o label (findOps c)]
      · subst hk
        rw [if_pos (eqv_refl _), toRat_one']
        simp; ring
      · rw [if_neg (fun h => hk (eqv_eq.1 h).symm)]
        simp [hk]
  · refine ⟨_, make_loop h8 label true cs hr [], ?_⟩
    obtain ⟨h1, h2⟩ := unique_fold (o := o) label cs [] Lin.wf_nil (fun k => by simp)
    refine ⟨h1, fun k => ?_⟩
    rw [h2 k]
    simp

theorem count_perm {o : OSI} {t t' : Component} (h : t.Perm t') (b : Bool) (s : Nat) : t.count o b s = t'.count o b s := by
  unfold Component.count; rw [(h.filter _).length_eq]

/-- **C37** (order): reordering the operators within a component does not change the result, whatever the letters. -/
theorem C37_op_order {o : OSI} (h8 : o.spaces.length ≤ 8) (label : Str) (unique : Bool) (cs cs' : List Str)
    (hr : ∀ c ∈ cs, Component.Registered o (findOps c))
    (h : List.Forall₂ (fun c c' => (findOps c).Perm (findOps c')) cs cs') :
    OpExpr.make o label cs unique = OpExpr.make o label cs' unique := by
  have hr' : ∀ c ∈ cs', Component.Registered o (findOps c) := by
    clear h8
    induction h with
    | nil => simp
    | cons h1 _ ih =>
      intro c hc
      rcases List.mem_cons.1 hc with rfl | hc
      · intro x hx; exact hr _ (by simp) x (h1.symm.subset hx)
      · exact ih (fun c hc => hr c (by simp [hc])) c hc
  unfold OpExpr.make
  rw [make_loop h8 label unique cs hr [], make_loop h8 label unique cs' hr' []]
  congr 1
  have hmap : cs.map (fun c => Component.operator o label (findOps c)) = cs'.map (fun c => Component.operator o label (findOps c)) := by
    clear hr hr'
    induction h with
    | nil => rfl
    | cons h1 _ ih =>
      rw [List.map_cons, List.map_cons, ih]
      congr 1
      unfold Component.operator
      simp only [count_perm h1]
  have hfold : ∀ (l : List Str) (e : OpExpr), l.foldl (fun r s =>
      if unique && Lin.contains r [Component.operator o label (findOps s)] then r
      else Lin.add r [Component.operator o label (findOps s)] (Rational.mk2 1 1)) e =
      (l.map (fun c => Component.operator o label (findOps c))).foldl (fun r p =>
        if unique && Lin.contains r [p] then r else Lin.add r [p] (Rational.mk2 1 1)) e := by
    intro l e; rw [List.foldl_map]
  rw [hfold, hfold, hmap]

theorem alpha_not_dagger {c : Char} (h : isAlpha c = true) : c ≠ '+' ∧ c ≠ '^' := by
  constructor <;> (rintro rfl; revert h; decide)

theorem findOps_nonalpha {c : Char} (h : isAlpha c = false) (l : Str) : findOps (c :: l) = findOps l := by
  rcases l with _ | ⟨d, l⟩
  · unfold findOps; rw [h]; simp [findOps]
  · conv_lhs => unfold findOps
    simp [h]

theorem findOps_plain {c : Char} (h : isAlpha c = true) (l : Str) (hl : ∀ d ∈ l.head?, d ≠ '+' ∧ d ≠ '^') :
    findOps (c :: l) = (c, false) :: findOps l := by
  rcases l with _ | ⟨d, l⟩
  · unfold findOps; rw [h]; simp [findOps]
  · have := hl d (by simp)
    conv_lhs => unfold findOps
    simp [h, this.1, this.2]

theorem findOps_dagger {c d : Char} (h : isAlpha c = true) (hd : d = '+' ∨ d = '^') (l : Str) :
    findOps (c :: d :: l) = (c, true) :: findOps l := by
  conv_lhs => unfold findOps
  rcases hd with rfl | rfl <;> simp [h]

/-- **C37** (reading): a component written with letters, `+` or `^` for creation operators and a separator is read as
that sequence of operators. -/
theorem C37_op_reads (sep dagger : Char) (hs : isAlpha sep = false) (hs' : sep ≠ '+' ∧ sep ≠ '^')
    (hd : dagger = '+' ∨ dagger = '^') (t : Component) (ht : ∀ x ∈ t, isAlpha x.1 = true) :
    findOps (Component.text sep dagger t) = t := by
  induction t with
  | nil => simp [Component.text, findOps]
  | cons x t ih =>
    obtain ⟨c, b⟩ := x
    have hc := ht (c, b) (by simp)
    have ih' := ih (fun y hy => ht y (by simp [hy]))
    rcases t with _ | ⟨y, t⟩
    · cases b
      · simp only [Component.text, tokenText, Bool.false_eq_true, if_false]
        rw [findOps_plain hc _ (by simp)]; simp [findOps]
      · simp only [Component.text, tokenText, if_true]
        rw [findOps_dagger hc hd]; simp [findOps]
    · cases b
      · simp only [Component.text, tokenText, Bool.false_eq_true, if_false, List.cons_append, List.nil_append]
        rw [findOps_plain hc _ (by simpa using hs'), findOps_nonalpha hs, ih']
      · simp only [Component.text, tokenText, if_true, List.cons_append, List.nil_append]
        rw [findOps_dagger hc hd, findOps_nonalpha hs, ih']

/-- a registry with the spaces `o`, `v` -/
def exReg : OSI := runReg OSI.empty ccHistory

-- `op("t", ["v+ v+ o o", "o v+ o v+", "v+ o"])`: the first two components are the same operator
example : (∀ c ∈ ["v+ v+ o o".toList, "o v+ o v+".toList, "v+ o".toList], Component.Registered exReg (findOps c)) ∧
    OpExpr.make exReg "t".toList ["v+ v+ o o".toList, "o v+ o v+".toList, "v+ o".toList] false =
      .ok [([mkOp "t" [(0, 1), (1, 0)]], ⟨1, 1⟩), ([mkOp "t" [(0, 2), (2, 0)]], ⟨2, 1⟩)] := by
  refine ⟨?_, by decide +kernel⟩
  have key : ∀ t : Component, (∀ x ∈ t, x.1 = 'o' ∨ x.1 = 'v') → Component.Registered exReg t := by
    intro t ht x hx
    rcases ht x hx with h | h <;> rw [h]
    · exact ⟨0, by decide +kernel, by decide +kernel⟩
    · exact ⟨1, by decide +kernel, by decide +kernel⟩
  intro c hc
  apply key
  simp only [List.mem_cons, List.not_mem_nil, or_false] at hc
  rcases hc with rfl | rfl | rfl <;> decide +kernel

/-! ## C54 -/

/-- **C54**: creating an operator from counts for every registered space succeeds, and stores exactly these counts, if
at most 8 spaces are registered; otherwise it writes outside the array. -/
theorem C54_operator_constructor (ns : Nat) (cre ann : List Int) (hc : cre.length = ns) (ha : ann.length = ns) :
    (ns ≤ 8 → ∃ g, GraphMatrix.mk2 ns cre ann = .ok g ∧
      ∀ s, g.cre s = cre.getD s 0 ∧ g.ann s = ann.getD s 0) ∧
    (8 < ns → GraphMatrix.mk2 ns cre ann = .error .ub) := by
  constructor
  · intro h
    refine ⟨_, by unfold GraphMatrix.mk2; rw [if_pos ⟨h, by omega, by omega⟩], fun s => ?_⟩
    unfold GraphMatrix.cre GraphMatrix.ann
    rw [gm_get_tab]
    by_cases h1 : s < ns
    · rw [if_pos (by omega), if_pos h1]; exact ⟨rfl, rfl⟩
    · have e1 : cre.getD s 0 = 0 := by rw [List.getD_eq_getElem?_getD, List.getElem?_eq_none (by omega)]; rfl
      have e2 : ann.getD s 0 = 0 := by rw [List.getD_eq_getElem?_getD, List.getElem?_eq_none (by omega)]; rfl
      rw [e1, e2]
      rw [if_neg h1]; split <;> exact ⟨rfl, rfl⟩
  · intro h
    unfold GraphMatrix.mk2
    rw [if_neg]
    rintro ⟨h', _⟩
    change ns ≤ 8 at h'
    omega

/-- **C54** (`op`): with at most 8 spaces `op` returns for all components over registered labels; with more than 8, any
call with at least one component is undefined behaviour. -/
theorem C54_op {o : OSI} (label : Str) (unique : Bool) (cs : List Str) (hr : ∀ c ∈ cs, Component.Registered o (findOps c)) :
    (o.spaces.length ≤ 8 → ∃ e, OpExpr.make o label cs unique = .ok e) ∧
    (8 < o.spaces.length → cs ≠ [] → OpExpr.make o label cs unique = .error .ub) := by
  constructor
  · intro h8
    exact ⟨_, make_loop h8 label unique cs hr []⟩
  · intro h8 hne
    rcases cs with _ | ⟨c, cs⟩
    · exact absurd rfl hne
    obtain ⟨ca, h1, h2⟩ := countOps_mk2_ub (hr c (by simp)) h8
    unfold OpExpr.make
    simp only [List.foldlM_cons, h1, bind, Except.bind, h2]

end Wicked
