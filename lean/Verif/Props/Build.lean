import Verif.Spec.Build
import Verif.Props.Parse
import Verif.Props.Algebra
/-! # Property C80: terms and expressions built call by call -/
namespace Wicked
open CppLt CppEq Lin Rational

/-! ## terms -/

theorem foldl_addOp (t : STerm) (l : List SQOp) : l.foldl STerm.addOp t = { t with ops := t.ops ++ l } := by
  induction l generalizing t with
  | nil => simp
  | cons a l ih => rw [List.foldl_cons, ih]; simp [STerm.addOp]

theorem build_tensors (cs : List TermCall) (t : STerm) : (cs.foldl TermCall.step t).tensors = t.tensors ++ cs.flatMap TermCall.newTensors := by
  induction cs generalizing t with
  | nil => simp
  | cons c cs ih =>
    rw [List.foldl_cons, ih]
    cases c <;> simp [TermCall.step, TermCall.newTensors, foldl_addOp, STerm.addOp]

theorem build_ops (cs : List TermCall) (t : STerm) (h : ∀ c ∈ cs, c.isSet = false) :
    (cs.foldl TermCall.step t).ops = t.ops ++ cs.flatMap TermCall.newOps := by
  induction cs generalizing t with
  | nil => simp
  | cons c cs ih =>
    rw [List.foldl_cons, ih _ (fun c hc => h c (by simp [hc]))]
    have := h c (by simp)
    cases c <;> simp_all [TermCall.step, TermCall.newOps, TermCall.isSet, foldl_addOp, STerm.addOp]

theorem build_flag (cs : List TermCall) (t : STerm) (h : ∀ c ∈ cs, c.isFlag = false) :
    (cs.foldl TermCall.step t).normalOrdered = t.normalOrdered := by
  induction cs generalizing t with
  | nil => rfl
  | cons c cs ih =>
    rw [List.foldl_cons, ih _ (fun c hc => h c (by simp [hc]))]
    have := h c (by simp)
    cases c <;> simp_all [TermCall.step, TermCall.isFlag, foldl_addOp, STerm.addOp]

/-- C80: the tensors of a term are all tensors that were added, in the order of the calls; its operators are those of
the last `set` call followed by those added since, in order; it is labelled normal ordered as the last
`set_normal_ordered` call says, and is not if there was none -/
theorem C80_term_history :
    (∀ cs, (buildTerm cs).tensors = cs.flatMap TermCall.newTensors) ∧
    (∀ cs, (∀ c ∈ cs, c.isSet = false) → (buildTerm cs).ops = cs.flatMap TermCall.newOps) ∧
    (∀ cs ops cs', (∀ c ∈ cs', c.isSet = false) →
      (buildTerm (cs ++ .setOps ops :: cs')).ops = ops ++ cs'.flatMap TermCall.newOps) ∧
    (∀ cs, (∀ c ∈ cs, c.isFlag = false) → (buildTerm cs).normalOrdered = false) ∧
    (∀ cs b cs', (∀ c ∈ cs', c.isFlag = false) → (buildTerm (cs ++ .setNormalOrdered b :: cs')).normalOrdered = b) := by
  refine ⟨fun cs => ?_, fun cs h => ?_, fun cs ops cs' h => ?_, fun cs h => ?_, fun cs b cs' h => ?_⟩
  · unfold buildTerm; rw [build_tensors]; rfl
  · unfold buildTerm; rw [build_ops _ _ h]; rfl
  · unfold buildTerm; rw [List.foldl_append, List.foldl_cons, build_ops _ _ h]; rfl
  · unfold buildTerm; rw [build_flag _ _ h]; rfl
  · unfold buildTerm; rw [List.foldl_append, List.foldl_cons, build_flag _ _ h]; rfl

/-- C80: a `Term` is the symbolic term built by the same calls, with the number given by the last `set` (1 if there was
none); a `Term` made from a symbolic term starts from it -/
theorem C80_coefficient_history (t : STerm) :
    (∀ cs, (buildCTerm (.ofSymbolic t) cs).base =
      (cs.filterMap (fun c => match c with | .base c => some c | .set _ => none)).foldl TermCall.step t) ∧
    (∀ cs : List TermCall, toRat (buildCTerm (.ofSymbolic t) (cs.map .base)).coefficient = 1) ∧
    (∀ cs c (cs' : List TermCall), (buildCTerm (.ofSymbolic t) (cs ++ .set c :: cs'.map .base)).coefficient = c) ∧
    CTerm.new = .ofSymbolic (buildTerm []) := by
  have hc : ∀ (cs : List TermCall) (u : CTerm), (buildCTerm u (cs.map .base)).coefficient = u.coefficient := by
    intro cs
    induction cs with
    | nil => intro u; rfl
    | cons c cs ih => intro u; exact ih _
  refine ⟨fun cs => ?_, fun cs => ?_, fun cs c cs' => ?_, rfl⟩
  · have : ∀ (cs : List CTermCall) (u : CTerm), (buildCTerm u cs).base =
        (cs.filterMap (fun c => match c with | .base c => some c | .set _ => none)).foldl TermCall.step u.base := by
      intro cs
      induction cs with
      | nil => intro u; rfl
      | cons c cs ih =>
        intro u
        have := ih (c.step u)
        cases c <;> simpa [buildCTerm, CTermCall.step] using this
    exact this cs _
  · rw [hc]; simp [CTerm.ofSymbolic, toRat_mk2]
  · have : buildCTerm (.ofSymbolic t) (cs ++ .set c :: cs'.map .base) =
        buildCTerm (CTermCall.step (buildCTerm (.ofSymbolic t) cs) (.set c)) (cs'.map .base) := by
      simp [buildCTerm, List.foldl_append]
    rw [this, hc]; rfl

/-! ## expressions -/

theorem ExprCall.step_eq (e : Expr) (c : ExprCall) (h : c.Ok) : ∃ r, Canon r ∧ toRat r = c.adds.2 ∧ c.step e = Lin.add e c.adds.1 r := by
  cases c with
  | term t => exact ⟨t.coefficient, h, rfl, rfl⟩
  | pair t c => exact ⟨c, h, rfl, rfl⟩
  | symbolic t => exact ⟨Rational.ofInt 1, canon_ofInt 1, by simp [ExprCall.adds], rfl⟩

theorem buildExpr_spec (cs : List ExprCall) (h : ∀ c ∈ cs, c.Ok) (e : Expr) (he : WF e) :
    WF (cs.foldl ExprCall.step e) ∧ ∀ k, coef (cs.foldl ExprCall.step e) k =
      coef e k + (cs.map (fun c => if CppEq.eq c.adds.1 k then c.adds.2 else 0)).sum := by
  induction cs generalizing e with
  | nil => exact ⟨he, fun k => by simp⟩
  | cons c cs ih =>
    obtain ⟨r, h1, h2, h3⟩ := c.step_eq e (h c (by simp))
    obtain ⟨i1, i2⟩ := ih (fun c hc => h c (by simp [hc])) (c.step e) (by rw [h3]; exact wf_add he _ h1)
    refine ⟨i1, fun k => ?_⟩
    rw [List.foldl_cons, i2, h3, coef_add he.toOk _ k h1, List.map_cons, List.sum_cons, h2, add_assoc]
    congr 2
    by_cases hk : CppEq.eq c.adds.1 k = true
    · rw [if_pos hk, if_pos (cppEq_iff.1 hk)]
    · rw [if_neg hk, if_neg (fun h => hk (cppEq_iff.2 h))]

/-- C80: after any sequence of `+=` of terms, pairs and symbolic terms, looking up a term gives the sum of the numbers
added for terms `==` to it, and no stored coefficient is zero -/
theorem C80_expression_history (cs : List ExprCall) (h : ∀ c ∈ cs, c.Ok) :
    (∀ k, ((SMap.find k (buildExpr cs)).map toRat).getD 0 = (cs.map (fun c => if CppEq.eq c.adds.1 k then c.adds.2 else 0)).sum) ∧
    ∀ p ∈ buildExpr cs, toRat p.2 ≠ 0 := by
  obtain ⟨h1, h2⟩ := buildExpr_spec cs h [] wf_nil
  refine ⟨fun k => ?_, h1.nonzero⟩
  have := h2 k
  rw [show coef ([] : Expr) k = 0 from rfl, zero_add] at this
  exact this

/-- C80: the order of the `+=` does not matter -/
theorem C80_order_irrelevant (cs cs' : List ExprCall) (hp : cs.Perm cs') (h : ∀ c ∈ cs, c.Ok) :
    Lin.isEqual (buildExpr cs) (buildExpr cs') = true := by
  have h' : ∀ c ∈ cs', c.Ok := fun c hc => h c (hp.mem_iff.2 hc)
  obtain ⟨h1, h2⟩ := buildExpr_spec cs h [] wf_nil
  obtain ⟨h3, h4⟩ := buildExpr_spec cs' h' [] wf_nil
  refine (isEqual_iff h1 h3).2 (fun k => ?_)
  rw [h2, h4, (hp.map _).sum_eq]

/-- C80: adding terms in one call each or as one expression (`e + f`) gives the same -/
theorem C80_append_is_sum (cs cs' : List ExprCall) (h : ∀ c ∈ cs, c.Ok) (h' : ∀ c ∈ cs', c.Ok) :
    Lin.isEqual (buildExpr (cs ++ cs')) (Lin.plus (buildExpr cs) (buildExpr cs')) = true := by
  have hh : ∀ c ∈ cs ++ cs', c.Ok := by
    intro c hc
    rcases List.mem_append.1 hc with hc | hc
    · exact h c hc
    · exact h' c hc
  obtain ⟨h1, h2⟩ := buildExpr_spec cs h [] wf_nil
  obtain ⟨h3, h4⟩ := buildExpr_spec cs' h' [] wf_nil
  obtain ⟨h5, h6⟩ := buildExpr_spec (cs ++ cs') hh [] wf_nil
  obtain ⟨_, p2, p3⟩ := plus_spec h1.toOk h3.toOk
  refine (isEqual_iff h5 (p2 h1)).2 (fun k => ?_)
  rw [h6, p3, h2, h4]
  simp [show coef ([] : Expr) k = 0 from rfl]

/-- An expression built by hand is what its printed form is read as, under the conditions of C57 -/
theorem build_print_parse (ops : List RegOp) (cs : List ExprCall) (h : ∀ c ∈ cs, c.Ok) :
    let o := runReg OSI.empty ops
    (buildExpr cs).Parsable o → ¬ DigitTouchesLabel (buildExpr cs) →
    ∃ s e, (buildExpr cs).str o = .ok s ∧ stringToExpr o s = .ok e ∧ Lin.isEqual e (buildExpr cs) = true := by
  intro o hp hd
  obtain ⟨s, e, h1, h2, h3, _⟩ := C57_print_parse_partial ops (buildExpr_spec cs h [] wf_nil).1 hp hd
  exact ⟨s, e, h1, h2, h3⟩

/-! ## tensors -/

theorem isWord_not_space {c : Char} (h : isWord c = true) : isSpace c = false := by
  unfold isWord at h
  rw [Bool.or_eq_true] at h
  rcases h with h | h
  · exact isAlnum_not_space h
  · rw [beq_iff_eq] at h; subst h; decide

theorem splitIndices_words {l : List Str} (h : ∀ w ∈ l, IndexWord w) : splitIndices (join [','] l) = l := by
  unfold splitIndices
  rw [getlines_join (fun w hw => ⟨fun hc => absurd ((h w hw).2 _ hc) (by decide), (h w hw).1⟩)]
  conv_rhs => rw [← List.map_id l]
  exact List.map_congr_left (fun w hw => trim_word (fun c hc => isWord_not_space ((h w hw).2 c hc)))

theorem makeIndex_fault {o : OSI} {s : Str} {f : Fault} (h : makeIndex o s = .error f) : f = .throw := by
  unfold makeIndex at h
  cases hm : matchIndex s with
  | none => rw [hm] at h; cases h; rfl
  | some p =>
    rw [hm] at h
    simp only [bind, Except.bind] at h
    cases hl : o.labelToSpace p.1 with
    | error g =>
      rw [hl] at h
      cases h
      exact OSI.labelToSpace_throw hl
    | ok i =>
      rw [hl] at h
      simp only at h
      unfold stoi at h
      split at h
      · rename_i heq; split at heq <;> cases heq; cases h; rfl
      · cases h

theorem mapM_makeIndex_fault {o : OSI} {l : List Str} {f : Fault} (h : l.mapM (m := Except Fault) (makeIndex o) = .error f) : f = .throw := by
  induction l with
  | nil => simp [pure, Except.pure] at h
  | cons a l ih =>
    rw [List.mapM_cons] at h
    simp only [bind, Except.bind] at h
    cases ha : makeIndex o a with
    | error g => rw [ha] at h; cases h; exact makeIndex_fault ha
    | ok i =>
      rw [ha] at h
      simp only at h
      cases hl : l.mapM (m := Except Fault) (makeIndex o) with
      | error g => rw [hl] at h; cases h; exact ih hl
      | ok is => rw [hl] at h; cases h

/-- C80: `tensor(label, lower, upper, symmetry)` and `tensor("label^{upper}_{lower}", symmetry)` make the same tensor, and
fail on the same input, for labels of letters and digits and index names of letters, digits and underscores -/
theorem C80_tensor_two_ways (o : OSI) (label : Str) (lower upper : List Str) (symm : Symmetry) (h0 : label ≠ [])
    (h1 : ∀ c ∈ label, isAlnum c = true) (hl : ∀ w ∈ lower, IndexWord w) (hu : ∀ w ∈ upper, IndexWord w) :
    makeTensorL o label lower upper symm =
      makeTensor o (label ++ "^{".toList ++ join [','] upper ++ "}_{".toList ++ join [','] lower ++ "}".toList) symm := by
  have hcls : ∀ l : List Str, (∀ w ∈ l, IndexWord w) → ∀ c ∈ join [','] l, (isWord c || c == ',' || isSpace c) = true := by
    intro l hl c hc
    rcases mem_join hc with hc | ⟨w, hw, hc⟩
    · simp at hc; simp [hc]
    · simp [(hl w hw).2 c hc]
  have := tensorParts_tword (cls := fun c => isWord c || c == ',' || isSpace c) (by decide) h0 h1 (hcls _ hu) (hcls _ hl) []
  rw [List.append_nil] at this
  unfold makeTensor
  rw [show (label ++ "^{".toList ++ join [','] upper ++ "}_{".toList ++ join [','] lower ++ "}".toList) =
    tword label (join [','] upper) (join [','] lower) from rfl, this]
  simp only
  unfold makeTensorL makeIndices
  rw [splitIndices_words hl, splitIndices_words hu]
  simp only [bind, Except.bind]
  cases e1 : lower.mapM (m := Except Fault) (makeIndex o) with
  | error f =>
    cases e2 : upper.mapM (m := Except Fault) (makeIndex o) with
    | error g => rw [mapM_makeIndex_fault e1, mapM_makeIndex_fault e2]
    | ok u => rfl
  | ok l => cases e2 : upper.mapM (m := Except Fault) (makeIndex o) <;> rfl

/-- C80: `cre(s)` and `ann(s)` make the operator of the named type on the index that `index(s)` makes -/
theorem C80_operator_of_index (o : OSI) (s : Str) (ty : SQType) (a : SQOp) :
    makeSQOp o s ty = .ok a ↔ a.type = ty ∧ makeIndex o s = .ok a.index := by
  unfold makeSQOp
  simp only [bind, Except.bind]
  cases makeIndex o s with
  | error f => simp
  | ok i => cases a; simp [pure, Except.pure, eq_comm]

/-! ## a concrete case -/

/-- two terms added with `+=`: `1/2 f^{v0}_{o0} a+(v0) a-(o0)` twice, built by hand -/
def exCalls : List TermCall :=
  [.addOp ⟨.annihilation, ⟨0, 0⟩⟩, .addTensor ⟨['f'], [⟨0, 0⟩], [⟨1, 0⟩], .antisymmetric, false⟩, .setOps [⟨.creation, ⟨1, 0⟩⟩],
   .addOps [⟨.annihilation, ⟨0, 0⟩⟩], .setNormalOrdered true]

example : buildTerm exCalls = ⟨true, [⟨.creation, ⟨1, 0⟩⟩, ⟨.annihilation, ⟨0, 0⟩⟩], [⟨['f'], [⟨0, 0⟩], [⟨1, 0⟩], .antisymmetric, false⟩]⟩ ∧
    buildExpr [.term ⟨⟨1, 2⟩, buildTerm exCalls⟩, .pair (buildTerm exCalls) ⟨1, 2⟩] = [(buildTerm exCalls, ⟨1, 1⟩)] ∧
    buildExpr [.symbolic (buildTerm exCalls), .pair (buildTerm exCalls) ⟨-1, 1⟩] = [] ∧
    (ExprCall.pair (buildTerm exCalls) ⟨1, 2⟩).Ok := by
  refine ⟨by decide, by decide, by decide, ?_⟩
  unfold ExprCall.Ok Canon; decide

example : makeTensorL (runReg OSI.empty ccHistory) ['f'] ["o0".toList] ["v_1".toList] .antisymmetric =
    .ok ⟨['f'], [⟨0, 0⟩], [⟨1, 1⟩], .antisymmetric, false⟩ := by decide

end Wicked
