import Verif.Proofs.ExtendWick
import Verif.Spec.Extend
import Verif.Model.GenOp
import Verif.Props.Registry
import Verif.Props.Wick
import Verif.Props.Linked
/-! # C71: registering more spaces does not change what a call returned before

`o` is the registry in any state and `adds` any sequence of further calls of `add_space`, successful or failed
(failed ones have raised an exception that the caller caught).  Whatever a call returned in the state `o`, the same call
returns after `adds`. -/
namespace Wicked
open CppLt CppEq Rational
open OSI

/-! ## gen_op -/

theorem filter_one {α : Type} (p : α → Bool) {a : α} : ∀ {l : List α}, a ∈ l → l.Nodup → (∀ b ∈ l, p b = true ↔ b = a) → l.filter p = [a] := by
  intro l
  induction l with
  | nil => intro h; simp at h
  | cons b l ih =>
    intro h hn hp
    rw [List.nodup_cons] at hn
    by_cases hb : b = a
    · subst hb
      rw [List.filter_cons_of_pos ((hp b (by simp)).2 rfl)]
      congr 1
      rw [List.filter_eq_nil_iff]
      intro c hc hpc
      exact hn.1 (((hp c (by simp [hc])).1 hpc) ▸ hc)
    · rw [List.filter_cons_of_neg (fun h' => hb ((hp b (by simp)).1 h'))]
      exact ih (by rcases List.mem_cons.1 h with h | h; exacts [absurd h.symm hb, h]) hn.2 (fun c hc => hp c (by simp [hc]))

theorem lookup_of {o : OSI} (hn : (o.spaces.map (·.label)).Nodup) {n : Nat} {s : OrbitalSpace} (h : o.spaces[n]? = some s) :
    GenOp.lookup o s.label = .ok n := by
  unfold GenOp.lookup
  have hlt : n < o.spaces.length := (List.getElem?_eq_some_iff.1 h).1
  rw [filter_one _ (a := n) (List.mem_range.2 hlt) List.nodup_range ?_]
  · rfl
  · intro m hm
    rw [List.mem_range] at hm
    constructor
    · intro hp
      rw [List.getElem?_eq_getElem hm] at hp
      simp only [Option.any_some, beq_iff_eq] at hp
      have h2 : (o.spaces.map (·.label))[m]'(by simpa using hm) = (o.spaces.map (·.label))[n]'(by simpa using hlt) := by
        simp only [List.getElem_map]
        rw [hp, (List.getElem?_eq_some_iff.1 h).2]
      exact (List.Nodup.getElem_inj_iff hn).1 h2
    · rintro rfl
      rw [h]; simp

theorem lookup_ok {o : OSI} {c : Char} {n : Nat} (h : GenOp.lookup o c = .ok n) : ∃ s, o.spaces[n]? = some s ∧ s.label = c := by
  unfold GenOp.lookup at h
  split at h
  · rename_i m hm
    cases h
    have := List.mem_of_getLast? hm
    rw [List.mem_filter] at this
    obtain ⟨_, h2⟩ := this
    cases hs : o.spaces[n]? with
    | none => rw [hs] at h2; simp at h2
    | some s => rw [hs] at h2; exact ⟨s, rfl, by simpa using h2⟩
  · cases h

theorem sim_lookup {o o' : OSI} (g : Grows o o') (hn : (o'.spaces.map (·.label)).Nodup) (c : Char) :
    Sim (· = ·) (GenOp.lookup o c) (GenOp.lookup o' c) := by
  intro n h
  obtain ⟨s, hs, rfl⟩ := lookup_ok h
  obtain ⟨m, hm⟩ := g.spaces
  refine ⟨n, lookup_of hn ?_, rfl⟩
  rw [hm, List.getElem?_append_left (List.getElem?_eq_some_iff.1 hs).1, hs]

theorem sim_sortedUp {o o' : OSI} (g : Grows o o') (hn : (o'.spaces.map (·.label)).Nodup) (l : Str) :
    Sim (· = ·) (GenOp.sortedUp o l) (GenOp.sortedUp o' l) := by
  induction l with
  | nil => exact Sim.refl _
  | cons a l ih =>
    cases l with
    | nil => exact Sim.refl _
    | cons b l =>
      unfold GenOp.sortedUp
      refine (sim_lookup g hn a).bindEq (fun x => (sim_lookup g hn b).bindEq (fun y => ?_))
      split
      · exact ih
      · exact Sim.refl _

theorem sim_sortedDown {o o' : OSI} (g : Grows o o') (hn : (o'.spaces.map (·.label)).Nodup) (l : Str) :
    Sim (· = ·) (GenOp.sortedDown o l) (GenOp.sortedDown o' l) := by
  induction l with
  | nil => exact Sim.refl _
  | cons a l ih =>
    cases l with
    | nil => exact Sim.refl _
    | cons b l =>
      unfold GenOp.sortedDown
      refine (sim_lookup g hn a).bindEq (fun x => (sim_lookup g hn b).bindEq (fun y => ?_))
      split
      · exact ih
      · exact Sim.refl _

theorem sim_genOp {o o' : OSI} (g : Grows o o') (hn : (o'.spaces.map (·.label)).Nodup) (h8 : o'.spaces.length ≤ 8) (label : Str) (rank : Int)
    (cre ann : Str) (d : Bool) : Sim (· = ·) (GenOp.genOp o label rank cre ann d) (GenOp.genOp o' label rank cre ann d) := by
  unfold GenOp.genOp
  refine Sim.bindEq ?_ (fun ts => sim_make g h8 label ts false)
  unfold GenOp.terms
  refine Sim.foldlM _ ?_ _ _ rfl
  rintro le _ acc _ rfl
  refine (sim_sortedUp g hn le).bindEq (fun b => ?_)
  split
  · refine Sim.foldlM _ ?_ _ _ rfl
    rintro re _ acc _ rfl
    refine (sim_sortedDown g hn re).bindEq (fun b => ?_)
    exact Sim.refl _
  · exact Sim.refl _

/-! ## C71 -/

/-- C71, printing: `str` and `latex` of an index, a tensor, a term and an expression return the same text -/
theorem C71_printing_stable (o : OSI) (adds : List RegOp) (h : OnlyAdds adds) :
    let o' := runReg o adds
    (∀ i : Index, StillReturns (i.str o) (i.str o') ∧ StillReturns (i.latex o) (i.latex o')) ∧
    (∀ t : Tensor, StillReturns (t.str o) (t.str o') ∧ StillReturns (t.latex o) (t.latex o')) ∧
    (∀ t : STerm, StillReturns (t.str o) (t.str o') ∧ StillReturns (t.latex o) (t.latex o')) ∧
    (∀ e : Expr, StillReturns (e.str o) (e.str o') ∧ ∀ sep, StillReturns (e.latex o sep) (e.latex o' sep)) := by
  have g := grows_runReg adds h o
  exact ⟨fun i => ⟨(sim_index_str g i).still, (sim_index_latex g i).still⟩, fun t => ⟨(sim_tensor_str g t).still, (sim_tensor_latex g t).still⟩,
    fun t => ⟨(sim_sterm_str g t).still, (sim_sterm_latex g t).still⟩, fun e => ⟨(sim_expr_str g e).still, fun sep => (sim_expr_latex g sep e).still⟩⟩

/-- C71, parsing: a string denotes the same index, tensor or expression -/
theorem C71_parsing_stable (o : OSI) (adds : List RegOp) (h : OnlyAdds adds) (s : Str) :
    let o' := runReg o adds
    StillReturns (makeIndex o s) (makeIndex o' s) ∧
    (∀ y, StillReturns (makeTensor o s y) (makeTensor o' s y) ∧ StillReturns (makeExpression o s y) (makeExpression o' s y)) ∧
    StillReturns (stringToExpr o s) (stringToExpr o' s) := by
  have g := grows_runReg adds h o
  exact ⟨(sim_makeIndex g s).still, fun y => ⟨(sim_makeTensor g s y).still, (sim_makeExpression g s y).still⟩, (sim_stringToExpr g s).still⟩

/-- C71: `canonicalize` of a term and of an expression -/
theorem C71_canonicalize_stable (o : OSI) (adds : List RegOp) (h : OnlyAdds adds) :
    let o' := runReg o adds
    (∀ t : STerm, StillReturns (t.canonicalize o) (t.canonicalize o')) ∧ (∀ e : Expr, StillReturns (e.canonicalize o) (e.canonicalize o')) := by
  have g := grows_runReg adds h o
  exact ⟨fun t => (sim_canonicalize g t).still, fun e => (sim_expr_canonicalize g e).still⟩

/-- C71: `vacuum_normal_ordered` -/
theorem C71_vacuum_normal_order_stable (o : OSI) (adds : List RegOp) (h : OnlyAdds adds) (os : Bool) (e : Expr) :
    StillReturns (e.vacuumNormalOrdered o os) (e.vacuumNormalOrdered (runReg o adds) os) :=
  (sim_vno (grows_runReg adds h o) os e).still

/-- C71: `to_manybody_equation`: the same keys and the same equations -/
theorem C71_manybody_stable (o : OSI) (adds : List RegOp) (h : OnlyAdds adds) (label : Str) (e : Expr) :
    StillReturns (e.toManybody o label) (e.toManybody (runReg o adds) label) :=
  (sim_toManybody (grows_runReg adds h o) label e).still

/-- C71: `Equation.compile` and the Python function `compile_einsum` produce the same code -/
theorem C71_compile_stable (o : OSI) (adds : List RegOp) (h : OnlyAdds adds) (q : Equation) :
    let o' := runReg o adds
    (∀ fmt6 fmt9 format, StillReturns (q.compile o fmt6 fmt9 format) (q.compile o' fmt6 fmt9 format)) ∧
    (∀ fmt, StillReturns (compileEinsumPy o fmt q) (compileEinsumPy o' fmt q)) := by
  have g := grows_runReg adds h o
  exact ⟨fun a b c => (sim_compile g a b c q).still, fun f => (sim_compileEinsumPy g f q).still⟩

/-- C71: `op`, as long as there are at most eight spaces -/
theorem C71_op_stable (o : OSI) (adds : List RegOp) (h : OnlyAdds adds) (h8 : (runReg o adds).spaces.length ≤ 8) (label : Str)
    (components : List Str) (unique : Bool) :
    StillReturns (OpExpr.make o label components unique) (OpExpr.make (runReg o adds) label components unique) :=
  (sim_make (grows_runReg adds h o) h8 label components unique).still

/-- C71: `gen_op`, as long as there are at most eight spaces; `past` is the whole history before -/
theorem C71_gen_op_stable (past adds : List RegOp) (h : OnlyAdds adds) (h8 : (runReg (runReg OSI.empty past) adds).spaces.length ≤ 8)
    (label : Str) (rank : Int) (cre ann : Str) (diagonal : Bool) :
    StillReturns (GenOp.genOp (runReg OSI.empty past) label rank cre ann diagonal)
      (GenOp.genOp (runReg (runReg OSI.empty past) adds) label rank cre ann diagonal) :=
  (sim_genOp (grows_runReg adds h _) (regInv_run adds _ (regInv_run past _ regInv_empty)).labels h8 label rank cre ann diagonal).still

/-- C71: `operator_expr` -/
theorem C71_operator_expr_stable (o : OSI) (adds : List RegOp) (h : OnlyAdds adds) (label : Str) (components : List Str) (normal : Bool)
    (y : Symmetry) (c : Rational) :
    StillReturns (operatorExpr o label components normal y c) (operatorExpr (runReg o adds) label components normal y c) :=
  (sim_operatorExpr (grows_runReg adds h o) label components normal y c).still

/-- C71: `contract` of a product and of an operator expression, as long as there are at most eight spaces -/
theorem C71_contract_stable (o : OSI) (adds : List RegOp) (h : OnlyAdds adds) (h8 : (runReg o adds).spaces.length ≤ 8) (cfg : WickCfg)
    (f : Rational) (minrank maxrank : Int) :
    (∀ ops : OperatorProduct, (∀ p ∈ ops, p.Valid o.spaces.length) →
      StillReturns (Wick.contract o cfg f ops minrank maxrank) (Wick.contract (runReg o adds) cfg f ops minrank maxrank)) ∧
    (∀ e : OpExpr, (∀ t ∈ e, ∀ p ∈ t.1, p.Valid o.spaces.length) →
      StillReturns (Wick.contractExpr o cfg f e minrank maxrank) (Wick.contractExpr (runReg o adds) cfg f e minrank maxrank)) := by
  have g := grows_runReg adds h o
  have h8' : o.spaces.length ≤ 8 := g.length_le.trans h8
  exact ⟨fun ops hv => (Wick.sim_contract g h8' cfg f hv minrank maxrank).still, fun e hv => (Wick.sim_contractExpr g h8' cfg f hv minrank maxrank).still⟩

theorem foldl_congr_mem {α β : Type} {f g : β → α → β} : ∀ (l : List α) (b : β), (∀ a ∈ l, ∀ b, f b a = g b a) → l.foldl f b = l.foldl g b := by
  intro l
  induction l with
  | nil => intro b _; rfl
  | cons a l ih =>
    intro b h
    rw [List.foldl_cons, List.foldl_cons, h a (by simp)]
    exact ih _ (fun c hc => h c (by simp [hc]))

/-- C71: the symmetry factor, the adjoint and the canonical form of operators, products and operator expressions, as long as
there are at most eight spaces -/
theorem C71_operators_stable (o : OSI) (adds : List RegOp) (h : OnlyAdds adds) (_h8 : (runReg o adds).spaces.length ≤ 8) :
    let n := o.spaces.length
    let n' := (runReg o adds).spaces.length
    (∀ p : Operator, p.Valid n → p.factor n' = p.factor n ∧ p.adjoint n' = p.adjoint n) ∧
    (∀ ops : OperatorProduct, (∀ p ∈ ops, p.Valid n) →
      OperatorProduct.adjoint n' ops = OperatorProduct.adjoint n ops ∧ OperatorProduct.canonicalize n' ops = OperatorProduct.canonicalize n ops) ∧
    (∀ e : OpExpr, (∀ t ∈ e, ∀ p ∈ t.1, p.Valid n) →
      OpExpr.adjoint n' e = OpExpr.adjoint n e ∧ OpExpr.canonicalize n' e = OpExpr.canonicalize n e) := by
  intro n n'
  obtain ⟨k, hk⟩ := (grows_runReg adds h o).exists_k
  rw [show n' = n + k from hk]
  refine ⟨fun p hv => ⟨Wick.factor_grow hv, adjoint_grow hv⟩, fun ops hv => ⟨productAdjoint_grow hv, productCanonicalize_grow hv⟩, fun e hv => ⟨?_, ?_⟩⟩
  · unfold OpExpr.adjoint Lin.mapKeys
    exact foldl_congr_mem _ _ (fun t ht b => by rw [productAdjoint_grow (hv t ht)])
  · unfold OpExpr.canonicalize
    exact foldl_congr_mem _ _ (fun t ht b => by rw [productCanonicalize_grow (hv t ht)])

/-! ## concrete cases -/

/-- a call that fails (the index `i` is taken), one that succeeds, one that fails (unknown elementary space `q`) -/
def exAdds : List RegOp :=
  [.add 'x' .fermion .general [['i']] [], .add 'w' .fermion .general [['p']] ['o', 'v'], .add 'y' .fermion .general [['q']] ['q'],
   .add 'u' .fermion .general [] []]

theorem exAdds_only : OnlyAdds exAdds := by
  intro op h
  simp only [exAdds, List.mem_cons, List.not_mem_nil, or_false] at h
  rcases h with rfl | rfl | rfl | rfl <;> exact ⟨_, _, _, _, _, rfl⟩

example : (runReg (runReg OSI.empty ccHistory) exAdds).spaces.map (·.label) = ['o', 'v', 'w', 'u'] ∧
    (runReg (runReg OSI.empty ccHistory) exAdds).spaces.length ≤ 8 := by decide

example : ∃ e, stringToExpr (runReg OSI.empty ccHistory) "1/4 t^{v0,v1}_{o0,o1} a+(o0) a-(v0)".toList = .ok e ∧ e.length = 1 := by
  obtain ⟨e, he, h⟩ := Wick.ok_of_check (x := stringToExpr (runReg OSI.empty ccHistory) "1/4 t^{v0,v1}_{o0,o1} a+(o0) a-(v0)".toList)
    (fun e => decide (e.length = 1)) (by decide +kernel)
  exact ⟨e, he, by simpa using h⟩

example : ∃ e, GenOp.genOp (runReg OSI.empty ccHistory) "F".toList 1 "ov".toList "ov".toList true = .ok e ∧ e.length = 4 := by
  obtain ⟨e, he, h⟩ := Wick.ok_of_check (x := GenOp.genOp (runReg OSI.empty ccHistory) "F".toList 1 "ov".toList "ov".toList true)
    (fun e => decide (e.length = 4)) (by decide +kernel)
  exact ⟨e, he, by simpa using h⟩

example : ∃ e, Wick.contractExpr (runReg OSI.empty ccHistory) {} (Rational.ofInt 1) (OpExpr.commutatorN [Wick.linkH, Wick.linkT]) 0 4 = .ok e ∧ e.length = 3 := by
  obtain ⟨e, he, h⟩ := Wick.ok_of_check (x := Wick.contractExpr (runReg OSI.empty ccHistory) {} (Rational.ofInt 1) (OpExpr.commutatorN [Wick.linkH, Wick.linkT]) 0 4)
    (fun e => decide (e.length = 3)) (by decide +kernel)
  exact ⟨e, he, by simpa using h⟩

/-- nine calls of `add_space` -/
def nineAdds : List RegOp := "abcdefghi".toList.map (fun c => RegOp.add c .fermion .general [] [])

/-- the bound of eight spaces in the statements about operators is needed: `op("t", ["a+ b"])` works when eight spaces are
registered, and registering the ninth makes the same call write outside its array -/
theorem C71_ninth_space_witness :
    (∃ e, OpExpr.make (runReg OSI.empty (nineAdds.take 8)) "t".toList ["a+ b".toList] false = .ok e) ∧
    OpExpr.make (runReg (runReg OSI.empty (nineAdds.take 8)) (nineAdds.drop 8)) "t".toList ["a+ b".toList] false = .error .ub := by
  constructor
  · obtain ⟨e, he, _⟩ := Wick.ok_of_check (x := OpExpr.make (runReg OSI.empty (nineAdds.take 8)) "t".toList ["a+ b".toList] false)
      (fun _ => true) (by decide +kernel)
    exact ⟨e, he⟩
  · decide +kernel

/-- a label that a failed call left behind is not covered: the call that uses it did not return before (it accesses a
space that does not exist), and after the next `add_space` it silently means that other space -/
theorem C71_stale_label_witness :
    let o := runReg (runReg OSI.empty ccHistory) (exAdds.take 1)
    let o' := runReg o ((exAdds.drop 1).take 1)
    let i : Res Str := do (← makeIndex o "x0".toList).str o
    let i' : Res Str := do (← makeIndex o' "x0".toList).str o'
    i = .error .ub ∧ i' = .ok "w0".toList := by
  decide +kernel

end Wicked
