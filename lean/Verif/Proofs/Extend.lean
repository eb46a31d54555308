import Verif.Spec.Extend
import Verif.Proofs.Orbital
import Verif.Proofs.CanonTerm
import Verif.Model.Latex
import Verif.Model.PyCompile
import Verif.Model.GenOp
import Verif.Model.MakeOp
/-! # Registering more spaces keeps results (C71): registry, printing, parsing, canonicalization -/
namespace Wicked
open CppLt CppEq OSI

/-! ## simulation between two computations -/

/-- if the first computation returns `a`, the second returns some related `b` -/
def Sim {α β : Type} (R : α → β → Prop) (x : Res α) (y : Res β) : Prop := ∀ a, x = .ok a → ∃ b, y = .ok b ∧ R a b

theorem Sim.still {α : Type} {x y : Res α} (h : Sim (· = ·) x y) : StillReturns x y := by
  intro r hr
  obtain ⟨b, hb, rfl⟩ := h r hr
  exact hb

theorem StillReturns.sim {α : Type} {x y : Res α} (h : StillReturns x y) : Sim (· = ·) x y := fun a ha => ⟨a, h a ha, rfl⟩

theorem Sim.ok {α β : Type} {R : α → β → Prop} {a : α} {b : β} (h : R a b) : Sim R (.ok a) (.ok b) := by
  intro r hr; cases hr; exact ⟨b, rfl, h⟩

theorem Sim.pure {α β : Type} {R : α → β → Prop} {a : α} {b : β} (h : R a b) : Sim R (Pure.pure a) (Pure.pure b) := Sim.ok h

theorem Sim.refl {α : Type} (x : Res α) : Sim (· = ·) x x := fun a ha => ⟨a, ha, rfl⟩

theorem Sim.error {α β : Type} {R : α → β → Prop} {f : Fault} {y : Res β} : Sim R (.error f) y := by
  intro a h; cases h

theorem Sim.mono {α β : Type} {R S : α → β → Prop} {x : Res α} {y : Res β} (h : Sim R x y) (hs : ∀ a b, R a b → S a b) : Sim S x y := by
  intro a ha
  obtain ⟨b, hb, hr⟩ := h a ha
  exact ⟨b, hb, hs _ _ hr⟩

theorem Sim.bind {α β γ δ : Type} {R : α → β → Prop} {S : γ → δ → Prop} {x : Res α} {y : Res β} {f : α → Res γ} {g : β → Res δ}
    (h : Sim R x y) (hf : ∀ a b, R a b → Sim S (f a) (g b)) : Sim S (x >>= f) (y >>= g) := by
  intro c hc
  cases x with
  | error e => cases hc
  | ok a =>
    obtain ⟨b, rfl, hr⟩ := h a rfl
    exact hf a b hr c hc

/-- like `bind`, remembering that the first computation returned the value -/
theorem Sim.bind' {α β γ δ : Type} {R : α → β → Prop} {S : γ → δ → Prop} {x : Res α} {y : Res β} {f : α → Res γ} {g : β → Res δ}
    (h : Sim R x y) (hf : ∀ a b, x = .ok a → R a b → Sim S (f a) (g b)) : Sim S (x >>= f) (y >>= g) := by
  intro c hc
  cases x with
  | error e => cases hc
  | ok a =>
    obtain ⟨b, rfl, hr⟩ := h a rfl
    exact hf a b rfl hr c hc

theorem Sim.bindEq {α γ δ : Type} {S : γ → δ → Prop} {x y : Res α} {f : α → Res γ} {g : α → Res δ}
    (h : Sim (· = ·) x y) (hf : ∀ a, Sim S (f a) (g a)) : Sim S (x >>= f) (y >>= g) :=
  h.bind (by rintro a _ rfl; exact hf a)

theorem Sim.foldlM {α β γ : Type} {R : β → γ → Prop} {f : β → α → Res β} {g : γ → α → Res γ} : ∀ (l : List α)
    (_ : ∀ a ∈ l, ∀ b c, R b c → Sim R (f b a) (g c a)) (b : β) (c : γ), R b c → Sim R (l.foldlM f b) (l.foldlM g c) := by
  intro l
  induction l with
  | nil => intro _ b c h; exact Sim.pure h
  | cons a l ih =>
    intro hs b c h
    rw [List.foldlM_cons, List.foldlM_cons]
    exact (hs a (by simp) b c h).bind (fun b c h => ih (fun a ha => hs a (by simp [ha])) b c h)

theorem Sim.mapM {α β γ : Type} {R : β → γ → Prop} {f : α → Res β} {g : α → Res γ} : ∀ (l : List α)
    (_ : ∀ a ∈ l, Sim R (f a) (g a)), Sim (List.Forall₂ R) (l.mapM (m := Except Fault) f) (l.mapM (m := Except Fault) g) := by
  intro l
  induction l with
  | nil => intro _; exact Sim.pure List.Forall₂.nil
  | cons a l ih =>
    intro hs
    rw [List.mapM_cons, List.mapM_cons]
    exact (hs a (by simp)).bind (fun b c h => (ih (fun a ha => hs a (by simp [ha]))).bind (fun bs cs h' => Sim.pure (h'.cons h)))

theorem forall₂_eq {α : Type} {l l' : List α} (h : List.Forall₂ (· = ·) l l') : l = l' := by
  induction h with
  | nil => rfl
  | cons h _ ih => rw [h, ih]

theorem Sim.mapMEq {α β : Type} {f g : α → Res β} (l : List α) (h : ∀ a ∈ l, Sim (· = ·) (f a) (g a)) :
    Sim (· = ·) (l.mapM (m := Except Fault) f) (l.mapM (m := Except Fault) g) :=
  (Sim.mapM l h).mono (fun _ _ h => forall₂_eq h)

/-! ## the registry -/

/-- `o'` has all spaces of `o` at the same positions, possibly more after them, and knows all labels `o` knows -/
structure Grows (o o' : OSI) : Prop where
  spaces : ∃ more, o'.spaces = o.spaces ++ more
  labels : ∀ l i, o.labelToSpace l = .ok i → o'.labelToSpace l = .ok i

theorem Grows.refl (o : OSI) : Grows o o := ⟨⟨[], by simp⟩, fun _ _ h => h⟩

theorem Grows.trans {o o' o'' : OSI} (h : Grows o o') (h' : Grows o' o'') : Grows o o'' := by
  obtain ⟨m, hm⟩ := h.spaces
  obtain ⟨m', hm'⟩ := h'.spaces
  exact ⟨⟨m ++ m', by rw [hm', hm, List.append_assoc]⟩, fun l i hl => h'.labels l i (h.labels l i hl)⟩

theorem labelToSpace_ok {o : OSI} {l : Char} {i : Int} : o.labelToSpace l = .ok i ↔ mapGet o.labelPos l = some i := by
  unfold labelToSpace
  cases mapGet o.labelPos l <;> simp

theorem grows_add (o : OSI) (l : Char) (f : FieldType) (s : SpaceType) (i : List Str) (e : List Char) :
    Grows o (o.addSpace l f s i e).1 := by
  rcases addSpace_cases o l f s i e with ⟨i, _, h2⟩ | ⟨h1, h2, h3, h4, h5⟩ | ⟨h1, h2, h3, eli, h4⟩
  · rw [h2]; exact Grows.refl o
  · refine ⟨⟨[], by rw [h3]; simp⟩, ?_⟩
    intro l' j hl
    rw [labelToSpace_ok] at hl ⊢
    rw [h4, mapGet_cons]
    split
    · rename_i hh; rw [← hh, h1] at hl; cases hl
    · exact hl
  · rw [h4]
    refine ⟨⟨_, rfl⟩, ?_⟩
    intro l' j hl
    rw [labelToSpace_ok] at hl ⊢
    rw [mapGet_cons]
    split
    · rename_i hh; rw [← hh, h1] at hl; cases hl
    · exact hl

theorem grows_runReg (ops : List RegOp) (h : OnlyAdds ops) (o : OSI) : Grows o (runReg o ops) := by
  induction ops generalizing o with
  | nil => exact Grows.refl o
  | cons op ops ih =>
    obtain ⟨l, f, s, i, e, rfl⟩ := h op (by simp)
    exact (grows_add o l f s i e).trans (ih (fun op hop => h op (by simp [hop])) _)

section
variable {o o' : OSI} (g : Grows o o')
include g

theorem Grows.length_le : o.spaces.length ≤ o'.spaces.length := by
  obtain ⟨m, hm⟩ := g.spaces
  rw [hm]; simp

theorem Grows.exists_k : ∃ k, o'.spaces.length = o.spaces.length + k := ⟨_, (Nat.add_sub_cancel' g.length_le).symm⟩

theorem sim_labelToSpace (l : Char) : Sim (· = ·) (o.labelToSpace l) (o'.labelToSpace l) := fun i h => ⟨i, g.labels l i h, rfl⟩

theorem sim_space (p : Int) : Sim (· = ·) (o.space p) (o'.space p) := by
  intro s hs
  refine ⟨s, ?_, rfl⟩
  obtain ⟨m, hm⟩ := g.spaces
  unfold OSI.space at hs ⊢
  split at hs
  · rename_i h0
    rw [if_pos h0]
    cases hx : o.spaces[p.toNat]? with
    | none => rw [hx] at hs; cases hs
    | some x =>
      rw [hx] at hs
      rw [hm, List.getElem?_append_left (List.getElem?_eq_some_iff.mp hx).1, hx]
      exact hs
  · cases hs

theorem sim_label (p : Int) : Sim (· = ·) (o.label p) (o'.label p) := (sim_space g p).bindEq (fun _ => Sim.refl _)
theorem sim_spaceType (p : Int) : Sim (· = ·) (o.spaceType p) (o'.spaceType p) := (sim_space g p).bindEq (fun _ => Sim.refl _)
theorem sim_fieldType (p : Int) : Sim (· = ·) (o.fieldType p) (o'.fieldType p) := (sim_space g p).bindEq (fun _ => Sim.refl _)
theorem sim_indices (p : Int) : Sim (· = ·) (o.indices p) (o'.indices p) := (sim_space g p).bindEq (fun _ => Sim.refl _)

theorem sim_indexLabel (p i : Int) : Sim (· = ·) (o.indexLabel p i) (o'.indexLabel p i) := by
  unfold OSI.indexLabel
  refine (sim_indices g p).bindEq (fun names => ?_)
  split
  · split
    · exact Sim.refl _
    · exact (sim_label g p).bindEq (fun _ => Sim.refl _)
  · exact (sim_label g p).bindEq (fun _ => Sim.refl _)

/-! ## printing -/

theorem sim_index_str (i : Index) : Sim (· = ·) (i.str o) (i.str o') := (sim_label g i.space).bindEq (fun _ => Sim.refl _)
theorem sim_index_latex (i : Index) : Sim (· = ·) (i.latex o) (i.latex o') := sim_indexLabel g _ _
theorem sim_opSymbol (p : Int) : Sim (· = ·) (o.opSymbol p) (o'.opSymbol p) := (sim_fieldType g p).bindEq (fun _ => Sim.refl _)

theorem sim_sqop_str (a : SQOp) : Sim (· = ·) (a.str o) (a.str o') :=
  (sim_opSymbol g _).bindEq (fun _ => (sim_index_str g _).bindEq (fun _ => Sim.refl _))

theorem sim_tensor_str (t : Tensor) : Sim (· = ·) (t.str o) (t.str o') :=
  (Sim.mapMEq _ (fun i _ => sim_index_str g i)).bindEq (fun _ =>
    (Sim.mapMEq _ (fun i _ => sim_index_str g i)).bindEq (fun _ => Sim.refl _))

theorem sim_sterm_str (t : STerm) : Sim (· = ·) (t.str o) (t.str o') :=
  (Sim.mapMEq _ (fun i _ => sim_tensor_str g i)).bindEq (fun _ =>
    (Sim.mapMEq _ (fun i _ => sim_sqop_str g i)).bindEq (fun _ => Sim.refl _))

theorem sim_linesStr (e : Expr) : ∀ n, Sim (· = ·) (linesStr o n e) (linesStr o' n e) := by
  induction e with
  | nil => intro n; exact Sim.refl _
  | cons p e ih =>
    intro n
    rw [linesStr, linesStr]
    exact ((sim_sterm_str g p.1).bindEq (fun _ => Sim.refl _)).bindEq (fun _ => (ih _).bindEq (fun _ => Sim.refl _))

theorem sim_expr_str (e : Expr) : Sim (· = ·) (e.str o) (e.str o') := (sim_linesStr g e 0).bindEq (fun _ => Sim.refl _)

theorem sim_sqop_latex (a : SQOp) : Sim (· = ·) (a.latex o) (a.latex o') :=
  (sim_opSymbol g _).bindEq (fun _ => (sim_index_latex g _).bindEq (fun _ => Sim.refl _))

theorem sim_tensor_latex (t : Tensor) : Sim (· = ·) (t.latex o) (t.latex o') :=
  (Sim.mapMEq _ (fun i _ => sim_index_latex g i)).bindEq (fun _ =>
    (Sim.mapMEq _ (fun i _ => sim_index_latex g i)).bindEq (fun _ => by
      cases matchLabel t.label <;> exact Sim.refl _))

theorem sim_opsLatex (ops : List SQOp) : Sim (· = ·) (opsLatex o ops) (opsLatex o' ops) := by
  unfold opsLatex
  split
  · exact (Sim.mapMEq _ (fun i _ => sim_index_latex g _)).bindEq (fun _ =>
      (Sim.mapMEq _ (fun i _ => sim_index_latex g _)).bindEq (fun _ => Sim.refl _))
  · exact Sim.mapMEq _ (fun i _ => sim_sqop_latex g i)

theorem sim_sterm_latex (t : STerm) : Sim (· = ·) (t.latex o) (t.latex o') := by
  unfold STerm.latex
  refine (Sim.mapMEq _ (fun i _ => sim_tensor_latex g i)).bindEq (fun ts => ?_)
  split
  · exact Sim.refl _
  · exact (sim_opsLatex g _).bindEq (fun _ => Sim.refl _)

theorem sim_linesLatex (e : Expr) : ∀ b, Sim (· = ·) (linesLatex o b e) (linesLatex o' b e) := by
  induction e with
  | nil => intro n; exact Sim.refl _
  | cons p e ih =>
    intro n
    rw [linesLatex, linesLatex]
    exact (sim_sterm_latex g p.1).bindEq (fun _ => (ih _).bindEq (fun _ => Sim.refl _))

theorem sim_expr_latex (sep : Str) (e : Expr) : Sim (· = ·) (e.latex o sep) (e.latex o' sep) :=
  (sim_linesLatex g e _).bindEq (fun _ => Sim.refl _)

/-! ## parsing -/

theorem sim_makeIndex (s : Str) : Sim (· = ·) (makeIndex o s) (makeIndex o' s) := by
  unfold makeIndex
  cases matchIndex s with
  | none => exact Sim.refl _
  | some p => exact (sim_labelToSpace g _).bindEq (fun _ => Sim.refl _)

theorem sim_makeIndices (s : Str) : Sim (· = ·) (makeIndices o s) (makeIndices o' s) := Sim.mapMEq _ (fun i _ => sim_makeIndex g i)

theorem sim_makeTensor (s : Str) (y : Symmetry) : Sim (· = ·) (makeTensor o s y) (makeTensor o' s y) := by
  unfold makeTensor
  split
  · exact (sim_makeIndices g _).bindEq (fun _ => (sim_makeIndices g _).bindEq (fun _ => Sim.refl _))
  · exact Sim.refl _

theorem sim_makeOps (n : Nat) : ∀ l : List Str, l.length ≤ n → Sim (· = ·) (makeOps o l) (makeOps o' l) := by
  induction n with
  | zero => intro l hl; obtain rfl : l = [] := List.length_eq_zero_iff.1 (by omega)
            exact Sim.refl _
  | succ n ih =>
    intro l hl
    match l with
    | [] => exact Sim.refl _
    | [a] => exact Sim.refl _
    | a :: b :: l =>
      rw [makeOps, makeOps]
      exact (sim_makeIndex g b).bindEq (fun _ => (ih l (by simp at hl; omega)).bindEq (fun _ => Sim.refl _))

theorem sim_makeExpression (s : Str) (y : Symmetry) : Sim (· = ·) (makeExpression o s y) (makeExpression o' s y) := by
  unfold makeExpression
  split
  · exact Sim.refl _
  · exact (Sim.mapMEq _ (fun t _ => sim_makeTensor g t y)).bindEq (fun _ =>
      (sim_makeOps g _ _ le_rfl).bindEq (fun _ => Sim.refl _))

theorem sim_stringToExpr (s : Str) : Sim (· = ·) (stringToExpr o s) (stringToExpr o' s) := by
  unfold stringToExpr
  refine Sim.foldlM _ ?_ _ _ rfl
  rintro a _ b _ rfl
  exact (sim_makeExpression g a _).bindEq (fun _ => Sim.refl _)

/-! ## compiling -/

theorem sim_uniqueIndices (l : List Index) : ∀ st, Sim (· = ·) (uniqueIndices o l st) (uniqueIndices o' l st) := by
  induction l with
  | nil => intro st; exact Sim.refl _
  | cons i l ih =>
    intro st
    rw [uniqueIndices, uniqueIndices]
    exact (sim_index_latex g i).bindEq (fun _ => (Sim.refl _).bindEq (fun _ => (ih _).bindEq (fun _ => Sim.refl _)))

theorem sim_tensorsIndices (l : List Tensor) : ∀ st, Sim (· = ·) (tensorsIndices o l st) (tensorsIndices o' l st) := by
  induction l with
  | nil => intro st; exact Sim.refl _
  | cons i l ih =>
    intro st
    rw [tensorsIndices, tensorsIndices]
    exact (sim_uniqueIndices g _ _).bindEq (fun _ => (ih _).bindEq (fun _ => Sim.refl _))

theorem sim_spaceLabels (t : Tensor) : Sim (· = ·) (spaceLabels o t) (spaceLabels o' t) := Sim.mapMEq _ (fun _ _ => sim_label g _)

theorem sim_einsumArg (t : Tensor) : Sim (· = ·) (einsumArg o t) (einsumArg o' t) := (sim_spaceLabels g t).bindEq (fun _ => Sim.refl _)

theorem sim_compileEinsum (fmt : Rational → Str) (q : Equation) : Sim (· = ·) (q.compileEinsum o fmt) (q.compileEinsum o' fmt) := by
  unfold Equation.compileEinsum
  split
  · exact Sim.refl _
  · exact (sim_spaceLabels g _).bindEq (fun _ => (sim_tensorsIndices g _ _).bindEq (fun _ => (sim_uniqueIndices g _ _).bindEq (fun _ =>
      (Sim.mapMEq _ (fun t _ => sim_einsumArg g t)).bindEq (fun _ => Sim.refl _))))

theorem sim_tensor_compile (t : Tensor) : Sim (· = ·) (t.compile o) (t.compile o') :=
  (Sim.mapMEq _ (fun i _ => sim_index_str g i)).bindEq (fun _ => Sim.refl _)

theorem sim_sterm_compile (t : STerm) : Sim (· = ·) (t.compileAmbit o) (t.compileAmbit o') :=
  (Sim.mapMEq _ (fun i _ => sim_tensor_compile g i)).bindEq (fun _ => Sim.refl _)

theorem sim_compileAmbit (fmt : Rational → Str) (q : Equation) : Sim (· = ·) (q.compileAmbit o fmt) (q.compileAmbit o' fmt) :=
  (sim_sterm_compile g _).bindEq (fun _ => (sim_sterm_compile g _).bindEq (fun _ => Sim.refl _))

theorem sim_compile (fmt6 fmt9 : Rational → Str) (format : Str) (q : Equation) :
    Sim (· = ·) (q.compile o fmt6 fmt9 format) (q.compile o' fmt6 fmt9 format) := by
  unfold Equation.compile
  split
  · exact sim_compileAmbit g _ _
  · split
    · exact sim_compileEinsum g _ _
    · exact Sim.refl _

/-! ## vacuum normal order -/

theorem sim_sqop_fieldType (a : SQOp) : Sim (· = ·) (a.fieldType o) (a.fieldType o') := sim_fieldType g _

theorem sim_noAdjacent (n : Nat) : ∀ l : List SQOp, l.length ≤ n → Sim (· = ·) (STerm.noAdjacentIdentical o l) (STerm.noAdjacentIdentical o' l) := by
  induction n with
  | zero => intro l hl; obtain rfl : l = [] := List.length_eq_zero_iff.1 (by omega)
            exact Sim.refl _
  | succ n ih =>
    intro l hl
    match l with
    | [] => exact Sim.refl _
    | [a] => exact Sim.refl _
    | a :: b :: l =>
      rw [STerm.noAdjacentIdentical, STerm.noAdjacentIdentical]
      have h := ih (b :: l) (by simp at hl ⊢; omega)
      split
      · refine (sim_sqop_fieldType g a).bindEq (fun f => ?_)
        split
        · exact Sim.refl _
        · exact h
      · exact h

theorem sim_commutatorFactor (a b : SQOp) : Sim (· = ·) (a.commutatorFactor o b) (a.commutatorFactor o' b) :=
  (sim_sqop_fieldType g a).bindEq (fun _ => (sim_sqop_fieldType g b).bindEq (fun _ => Sim.refl _))

theorem sim_vnoAux (os : Bool) (fuel : Nat) : ∀ t c, Sim (· = ·) (STerm.vnoAux o os fuel t c) (STerm.vnoAux o' os fuel t c) := by
  induction fuel with
  | zero => intro t c; exact Sim.refl _
  | succ n ih =>
    intro t c
    rw [STerm.vnoAux, STerm.vnoAux]
    split
    · exact Sim.refl _
    · refine (sim_noAdjacent g _ _ le_rfl).bindEq (fun v => ?_)
      dsimp only
      split
      · exact Sim.refl _
      · split
        · exact Sim.refl _
        · refine (sim_commutatorFactor g _ _).bindEq (fun s => (ih _ _).bindEq (fun r => ?_))
          split
          · split
            · exact (ih _ _).bindEq (fun _ => Sim.refl _)
            · exact Sim.refl _
          · exact Sim.refl _

theorem sim_vno (os : Bool) (e : Expr) : Sim (· = ·) (e.vacuumNormalOrdered o os) (e.vacuumNormalOrdered o' os) := by
  unfold Expr.vacuumNormalOrdered
  split
  · exact Sim.refl _
  · refine Sim.foldlM _ ?_ _ _ rfl
    rintro a _ b _ rfl
    exact (sim_vnoAux g os _ _ _).bindEq (fun _ => Sim.refl _)

end
end Wicked
