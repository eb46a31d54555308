import Verif.Proofs.Order
import Verif.Model.Term
import Verif.Model.Operator
namespace Wicked
open CppLt CppEq

theorem Index.ext' {a b : Index} (h1 : a.space = b.space) (h2 : a.pos = b.pos) : a = b := by
  cases a; cases b; simp_all

instance : StrictTotal Index :=
  StrictTotal.pullback (fun i : Index => (i.space, i.pos))
    (by intro a b h; simp at h; exact Index.ext' h.1 h.2) (fun a b => rfl)

instance : EqvIsEq Index where
  iff a b := by
    rw [← eqv_iff, eqv_eq]; show decide (a = b) = true ↔ _; simp

theorem SQOp.ext' {a b : SQOp} (h1 : a.isCre = b.isCre) (h2 : a.index = b.index) : a = b := by
  rcases a with ⟨ta, ia⟩; rcases b with ⟨tb, ib⟩
  cases ta <;> cases tb <;> simp_all [SQOp.isCre]

theorem sqop_lt (a b : SQOp) : lt a b = SQOp.ltB a b := rfl

instance : StrictTotal SQOp where
  irrefl a := by
    simp only [sqop_lt, SQOp.ltB]
    cases a.isCre <;> simp [StrictWeak.irrefl]
  trans a b c := by
    simp only [sqop_lt, SQOp.ltB]
    cases a.isCre <;> cases b.isCre <;> cases c.isCre <;> simp
    · intro h h'; exact StrictWeak.trans _ _ _ h' h
    · intro h h'; exact StrictWeak.trans _ _ _ h h'
  incomp a b c := by
    simp only [sqop_lt, SQOp.ltB]
    cases a.isCre <;> cases b.isCre <;> cases c.isCre <;> simp
    · intro h1 h2 h3 h4
      have := StrictWeak.incomp _ _ _ h2 h1 h4 h3
      exact ⟨this.2, this.1⟩
    · intro h1 h2 h3 h4
      have := StrictWeak.incomp _ _ _ h1 h2 h3 h4
      exact ⟨this.1, this.2⟩
  conn a b := by
    simp only [sqop_lt, SQOp.ltB]
    rcases ha : a.isCre <;> rcases hb : b.isCre <;> simp
    · intro h1 h2; exact SQOp.ext' (by simp [ha, hb]) (StrictTotal.conn _ _ h2 h1)
    · intro h1 h2; exact SQOp.ext' (by simp [ha, hb]) (StrictTotal.conn _ _ h1 h2)

instance : EqvIsEq SQOp where
  iff a b := by
    rw [← eqv_iff, eqv_eq]; show decide (a = b) = true ↔ _; simp

/-- the part of a tensor that comparison looks at -/
def Tensor.key (t : Tensor) : Str × List Index × List Index := (t.label, t.lower, t.upper)

theorem tensor_lt (a b : Tensor) : lt a b = lt a.key b.key := by
  show Tensor.ltB a b = _
  simp only [Tensor.ltB, Tensor.key, pair_lt]
  cases lt a.label b.label <;> cases lt b.label a.label <;>
  cases lt a.lower b.lower <;> cases lt b.lower a.lower <;> simp

instance : StrictWeak Tensor := StrictWeak.pullback Tensor.key tensor_lt

theorem tensor_eqv {a b : Tensor} : eqv a b = true ↔ a.key = b.key := by
  rw [← eqv_eq (α := Str × List Index × List Index)]
  simp only [eqv, tensor_lt]

theorem tensor_eq {a b : Tensor} : eq a b = true ↔ a.key = b.key := by
  show Tensor.eqB a b = true ↔ _
  simp only [Tensor.eqB, Tensor.key, Bool.and_eq_true, cppEq_iff, eqv_eq, Prod.mk.injEq, and_assoc]

instance : EqvIsEq Tensor where
  iff a b := by rw [← eqv_iff, tensor_eqv, tensor_eq]

/-- the part of a term that comparison looks at -/
def STerm.key (t : STerm) : List (Str × List Index × List Index) × List SQOp :=
  (t.tensors.map Tensor.key, t.ops)

theorem lexLt_map {α β : Type _} [CppLt α] [CppLt β] (f : α → β) (h : ∀ a b : α, lt a b = lt (f a) (f b)) :
    ∀ l l' : List α, lexLt l l' = lexLt (l.map f) (l'.map f)
  | [], [] => rfl
  | [], _ :: _ => rfl
  | _ :: _, [] => rfl
  | a :: l, b :: l' => by
    simp only [List.map_cons, lexLt_cons]
    rw [h, h b a, lexLt_map f h l l']

theorem sterm_lt (a b : STerm) : lt a b = lt a.key b.key := by
  show STerm.ltB a b = _
  simp only [STerm.ltB, STerm.key, pair_lt, list_lt]
  rw [← lexLt_map Tensor.key tensor_lt, ← lexLt_map Tensor.key tensor_lt]
  rcases h1 : lexLt a.tensors b.tensors <;> rcases h2 : lexLt b.tensors a.tensors <;> simp
  have := lt_asymm (α := List Tensor) h1
  rw [list_lt, h2] at this; cases this

instance : StrictWeak STerm := StrictWeak.pullback STerm.key sterm_lt

theorem sterm_eqv {a b : STerm} : eqv a b = true ↔ a.key = b.key := by
  rw [← eqv_eq (α := List (Str × List Index × List Index) × List SQOp)]
  simp only [eqv, sterm_lt]

theorem tensorList_eq {a b : List Tensor} : eq a b = true ↔ a.map Tensor.key = b.map Tensor.key := by
  rw [cppEq_iff, eqv_iff, list_lt, list_lt, lexLt_map Tensor.key tensor_lt,
    lexLt_map Tensor.key tensor_lt b]
  rw [← list_lt, ← list_lt, ← eqv_iff, eqv_eq]

theorem sterm_eq {a b : STerm} : eq a b = true ↔ a.key = b.key := by
  show STerm.eqB a b = true ↔ _
  simp only [STerm.eqB, STerm.key, Bool.and_eq_true, tensorList_eq, Prod.mk.injEq]
  rw [cppEq_iff (α := List SQOp), eqv_eq]

instance : EqvIsEq STerm where
  iff a b := by rw [← eqv_iff, sterm_eqv, sterm_eq]

theorem gm_lt (a b : GraphMatrix) : lt a b = lt a.el.toList b.el.toList := rfl

theorem gm_toList_inj {a b : GraphMatrix} (h : a.el.toList = b.el.toList) : a = b := by
  cases a; cases b; simp only [GraphMatrix.mk.injEq]; exact Vector.toList_inj.1 h

instance : StrictTotal GraphMatrix :=
  StrictTotal.pullback (fun g : GraphMatrix => g.el.toList) (fun _ _ h => gm_toList_inj h) gm_lt

instance : EqvIsEq GraphMatrix where
  iff a b := by
    show eq a.el.toList b.el.toList = true ↔ _
    rw [cppEq_iff, eqv_iff]; exact Iff.rfl

theorem op_lt (a b : Operator) : lt a b = lt (a.label, a.gm) (b.label, b.gm) := by
  show Operator.ltB a b = _
  simp only [Operator.ltB, pair_lt]
  cases lt a.label b.label <;> cases lt b.label a.label <;> simp

instance : StrictTotal Operator :=
  StrictTotal.pullback (fun p : Operator => (p.label, p.gm))
    (by intro a b h; cases a; cases b; simp_all) op_lt

instance : EqvIsEq Operator where
  iff a b := by
    rw [← eqv_iff, eqv_eq]
    show Operator.eqB a b = true ↔ _
    simp only [Operator.eqB, Bool.and_eq_true]
    rw [cppEq_iff, cppEq_iff, eqv_eq, eqv_eq]
    cases a; cases b; simp

end Wicked
