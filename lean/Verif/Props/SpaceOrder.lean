import Verif.Proofs.SpaceMove
import Verif.Props.WickSum
import Verif.Props.AdjContract
import Verif.Props.Extend
import Verif.Props.OpMake
import Verif.Props.Program
import Verif.Props.Linked
/-! # C92: the order in which the orbital spaces are registered does not matter -/
namespace Wicked
open CppLt CppEq Rational Lin OpExpr
namespace Wick

/-! ## Operators in the other registry -/

/-- the operator with the numbers of space `s` in space `π s` -/
def Operator.move (π : Equiv.Perm Nat) (p : Operator) : Operator := ⟨p.label, GraphMatrix.tab (fun s => p.gm.get (π.symm s))⟩

section move
variable {π : Equiv.Perm Nat} {o o' : OSI}

theorem get_move (ho : SameSpaces π o o') (h8 : o.spaces.length ≤ 8) (p : Operator) {s : Nat} (hs : s < o.spaces.length) :
    (Operator.move π p).gm.get (π s) = p.gm.get s := by
  have := (ho.lt s).2 hs
  rw [Operator.move, gm_get_tab, if_pos (by omega), Equiv.symm_apply_apply]

theorem move_same (ho : SameSpaces π o o') (h8 : o.spaces.length ≤ 8) (p : Operator) : p.SameOp π o.spaces.length (Operator.move π p) :=
  ⟨rfl, fun s hs => by unfold GraphMatrix.cre GraphMatrix.ann; rw [get_move ho h8 p hs]; exact ⟨rfl, rfl⟩⟩

theorem symm_lt (ho : SameSpaces π o o') (s : Nat) : π.symm s < o.spaces.length ↔ s < o.spaces.length := by
  rw [← ho.lt, Equiv.apply_symm_apply]

theorem move_valid (ho : SameSpaces π o o') {p : Operator} (hp : p.Valid o.spaces.length) : (Operator.move π p).Valid o'.spaces.length := by
  intro s
  unfold GraphMatrix.cre GraphMatrix.ann Operator.move
  rw [gm_get_tab]
  split
  · obtain ⟨h1, h2, h3⟩ := hp (π.symm s)
    refine ⟨h1, h2, fun hs => h3 ?_⟩
    have := symm_lt ho s
    rw [ho.num] at hs
    omega
  · simp

theorem move_adjoint (ho : SameSpaces π o o') (h8 : o.spaces.length ≤ 8) (p : Operator) :
    (Operator.move π p).adjoint o'.spaces.length = Operator.move π (p.adjoint o.spaces.length) := by
  unfold Operator.adjoint
  rw [Operator.move, Operator.move]
  congr 1
  unfold GraphMatrix.adjoint
  dsimp only
  congr 1
  funext s
  rw [gm_get_tab]
  by_cases hs : s < o.spaces.length
  · have := (symm_lt ho s).2 hs
    rw [ho.num, if_pos hs, if_pos (by omega), if_pos this]
    unfold GraphMatrix.cre GraphMatrix.ann
    rw [gm_get_tab, if_pos (by omega)]
  · have := (symm_lt ho s).not.2 hs
    rw [ho.num, if_neg hs]
    simp [this]

theorem factor_move (ho : SameSpaces π o o') (h8 : o.spaces.length ≤ 8) {p p' : Operator} (hp : p.Valid o.spaces.length) (hp' : p'.Valid o'.spaces.length)
    (h : p.SameOp π o.spaces.length p') : toRat (p'.factor o'.spaces.length) = toRat (p.factor o.spaces.length) := by
  rw [(C39_operator_factor hp).2, (C39_operator_factor hp').2, ho.num]
  have key : ∀ F F' : Nat → ℚ, (∀ s < o.spaces.length, F' (π s) = F s) →
      ((List.range o.spaces.length).map F').prod = ((List.range o.spaces.length).map F).prod := by
    intro F F' hF
    rw [← ((range_mov ho).map F').prod_eq, List.map_map]
    congr 1
    apply List.map_congr_left
    intro s hs
    exact hF s (List.mem_range.1 hs)
  rw [key (fun s => ((p.gm.cre s).toNat.factorial : ℚ)) (fun s => ((p'.gm.cre s).toNat.factorial : ℚ)) (fun s hs => by rw [(h.2 s hs).1]),
    key (fun s => ((p.gm.ann s).toNat.factorial : ℚ)) (fun s => ((p'.gm.ann s).toNat.factorial : ℚ)) (fun s hs => by rw [(h.2 s hs).2])]

theorem move_inj (ho : SameSpaces π o o') (h8 : o.spaces.length ≤ 8) {p q : Operator} (hp : p.Valid o.spaces.length) (hq : q.Valid o.spaces.length)
    (h : Operator.move π p = Operator.move π q) : p = q := by
  have h1 : p.label = q.label := by have := congrArg Operator.label h; exact this
  have h2 : ∀ s, p.gm.get s = q.gm.get s := by
    intro s
    by_cases hs : s < o.spaces.length
    · rw [← get_move ho h8 p hs, ← get_move ho h8 q hs, h]
    · have a := (hp s).2.2 (by omega)
      have b := (hq s).2.2 (by omega)
      exact Prod.ext (a.1.trans b.1.symm) (a.2.trans b.2.symm)
  cases p; cases q
  simp only at h1 h2
  rw [h1, gm_ext (fun s _ => h2 s)]

end move

/-! ## Contractions -/

section contract
variable {Ω R A : Type} [Inhabited Ω] [DecidableEq Ω] [CommRing R] [Ring A] [Algebra R A] [Algebra ℚ R] [Algebra ℚ A] [IsScalarTower ℚ R A]
variable {π : Equiv.Perm Nat} {o o' : OSI}

/-- **C92**: the value of the contractions of a product of operators does not depend on the order of the spaces in the registry: if the same operators are
built in two registries that hold the same spaces in different orders, the two results have the same value for all antisymmetric tensors. -/
theorem C92_space_order (ho : SameSpaces π o o') {cfg : WickCfg} {ops ops' : OperatorProduct} (h8 : o.spaces.length ≤ 8)
    (hvo : ∀ p ∈ ops, p.Valid o.spaces.length) (hvo' : ∀ p ∈ ops', p.Valid o'.spaces.length) (hops : List.Forall₂ (Operator.SameOp π o.spaces.length) ops ops')
    {f : Rational} (hf : Canon f) {minr maxr : Int} {e e' : Expr} (h : contract o cfg f ops minr maxr = .ok e) (h' : contract o' cfg f ops' minr maxr = .ok e')
    {v v' : OrbSystem Ω R A} (hT : v'.T = v.T) (hO : v'.op = v.op) (hdom : ∀ s < o.spaces.length, v'.dom ((π s : Nat) : Int) = v.dom (s : Int))
    (hv : v.Antisymmetric) (hac : v.Anticommute) : Lin.eval v'.value e' = Lin.eval v.value e := by
  have hv' : v'.Antisymmetric := by unfold OrbSystem.Antisymmetric; rw [hT]; exact hv
  have hac' : v'.Anticommute := by unfold OrbSystem.Anticommute; rw [hO]; exact hac
  rw [C53_wick_weighted h8 hvo hf h hv hac, C53_wick_weighted (by rw [ho.num]; exact h8) hvo' hf h' hv' hac', wickSum_mov hT hO ho hdom hv hac hops]
  congr 2
  clear h h'
  have : ops'.map (fun p => toRat (p.factor o'.spaces.length)) = ops.map (fun p => toRat (p.factor o.spaces.length)) := by
    induction hops with
    | nil => rfl
    | cons hp _ ih =>
      rw [List.map_cons, List.map_cons, ih (fun p hp => hvo p (by simp [hp])) (fun p hp => hvo' p (by simp [hp])),
        factor_move ho h8 (hvo _ (by simp)) (hvo' _ (by simp)) hp]
  rw [this]

/-! ## Expressions -/

/-- the expressions denote the same linear combination of products, up to the numbering of the spaces -/
structure SameExpr (π : Equiv.Perm Nat) (o o' : OSI) (M : Type) [AddCommGroup M] [Module ℚ M] (E E' : OpExpr) : Prop where
  ok : Lin.Ok E
  ok' : Lin.Ok E'
  valid : ∀ q ∈ E, ∀ p ∈ q.1, p.Valid o.spaces.length
  valid' : ∀ q ∈ E', ∀ p ∈ q.1, p.Valid o'.spaces.length
  eval : ∀ φ : OperatorProduct → M, Lin.eval φ E' = Lin.eval (fun w => φ (w.map (Operator.move π))) E

theorem SameExpr.contract (ho : SameSpaces π o o') {cfg : WickCfg} {E E' : OpExpr} (h8 : o.spaces.length ≤ 8) (hE : SameExpr π o o' A E E')
    {f : Rational} (hf : Canon f) {minr maxr : Int} {e e' : Expr} (h : contractExpr o cfg f E minr maxr = .ok e) (h' : contractExpr o' cfg f E' minr maxr = .ok e')
    {v v' : OrbSystem Ω R A} (hT : v'.T = v.T) (hO : v'.op = v.op) (hdom : ∀ s < o.spaces.length, v'.dom ((π s : Nat) : Int) = v.dom (s : Int))
    (hv : v.Antisymmetric) (hac : v.Anticommute) : Lin.eval v'.value e' = Lin.eval v.value e := by
  have hv' : v'.Antisymmetric := by unfold OrbSystem.Antisymmetric; rw [hT]; exact hv
  have hac' : v'.Anticommute := by unfold OrbSystem.Anticommute; rw [hO]; exact hac
  rw [C53_wick_expr_weighted h8 hE.valid hE.ok.canon hf h hv hac, C53_wick_expr_weighted (by rw [ho.num]; exact h8) hE.valid' hE.ok'.canon hf h' hv' hac']
  have key : ∀ (φ : OperatorProduct → A) (c : OperatorProduct → ℚ) (F : OpExpr), (F.map (fun q => (toRat f * toRat q.2 * c q.1) • φ q.1)).sum = toRat f • Lin.eval (fun k => c k • φ k) F := by
    intro φ c F
    unfold Lin.eval
    rw [List.smul_sum, List.map_map]
    congr 1
    apply List.map_congr_left
    intro q _
    simp only [Function.comp, smul_smul, mul_assoc]
  rw [key (fun k => wickSum v' o' cfg.maxCumulant k minr maxr overcount) (fun k => (k.map (fun p => toRat (p.factor o'.spaces.length))).prod),
    key (fun k => wickSum v o cfg.maxCumulant k minr maxr overcount) (fun k => (k.map (fun p => toRat (p.factor o.spaces.length))).prod), hE.eval]
  congr 1
  unfold Lin.eval
  congr 1
  apply List.map_congr_left
  intro q hq
  have hF : List.Forall₂ (Operator.SameOp π o.spaces.length) q.1 (q.1.map (Operator.move π)) := by
    rw [List.forall₂_map_right_iff, List.forall₂_same]
    exact fun p _ => move_same ho h8 p
  beta_reduce
  rw [wickSum_mov hT hO ho hdom hv hac hF, List.map_map]
  congr 3
  apply List.map_congr_left
  intro p hp
  exact factor_move ho h8 (hE.valid q hq p hp) (move_valid ho (hE.valid q hq p hp)) (move_same ho h8 p)

end contract

section programs
variable {M : Type} [AddCommGroup M] [Module ℚ M]
variable {π : Equiv.Perm Nat} {o o' : OSI} {E E' F F' : OpExpr}

theorem word_congr (φ : OperatorProduct → M) (a b : OperatorProduct) (h : eqv a b = true) : φ a = φ b := by rw [eqv_eq.1 h]

theorem SameExpr.plus (h : SameExpr π o o' M E E') (k : SameExpr π o o' M F F') : SameExpr π o o' M (OpExpr.plus E F) (OpExpr.plus E' F') where
  ok := (Lin.plus_spec h.ok k.ok).1
  ok' := (Lin.plus_spec h.ok' k.ok').1
  valid := Lin.mem_fold_add (fun k : OperatorProduct => ∀ p ∈ k, p.Valid o.spaces.length) Prod.fst Prod.snd F E h.valid k.valid
  valid' := Lin.mem_fold_add (fun k : OperatorProduct => ∀ p ∈ k, p.Valid o'.spaces.length) Prod.fst Prod.snd F' E' h.valid' k.valid'
  eval φ := by
    unfold OpExpr.plus
    rw [Lin.eval_plus φ (word_congr φ) h.ok' k.ok', Lin.eval_plus _ (word_congr _) h.ok k.ok, h.eval, k.eval]

theorem SameExpr.minus (h : SameExpr π o o' M E E') (k : SameExpr π o o' M F F') : SameExpr π o o' M (OpExpr.minus E F) (OpExpr.minus E' F') where
  ok := (Lin.minus_spec h.ok k.ok).1
  ok' := (Lin.minus_spec h.ok' k.ok').1
  valid := Lin.mem_fold_add (fun k : OperatorProduct => ∀ p ∈ k, p.Valid o.spaces.length) Prod.fst (fun p => Rational.neg p.2) F E h.valid k.valid
  valid' := Lin.mem_fold_add (fun k : OperatorProduct => ∀ p ∈ k, p.Valid o'.spaces.length) Prod.fst (fun p => Rational.neg p.2) F' E' h.valid' k.valid'
  eval φ := by
    unfold OpExpr.minus
    rw [Lin.eval_minus φ (word_congr φ) h.ok' k.ok', Lin.eval_minus _ (word_congr _) h.ok k.ok, h.eval, k.eval]

theorem SameExpr.mul (h : SameExpr π o o' M E E') (k : SameExpr π o o' M F F') : SameExpr π o o' M (OpExpr.mul E F) (OpExpr.mul E' F') where
  ok := (Lin.mul_spec _ h.ok k.ok).1.toOk
  ok' := (Lin.mul_spec _ h.ok' k.ok').1.toOk
  valid := by
    unfold OpExpr.mul
    rw [Lin.mul_eq_fold]
    refine Lin.mem_fold_add (fun k : OperatorProduct => ∀ p ∈ k, p.Valid o.spaces.length) _ _ _ [] (by simp) ?_
    intro b hb p hp
    obtain ⟨x, hx, hb⟩ := List.mem_flatMap.1 hb
    obtain ⟨y, hy, rfl⟩ := List.mem_map.1 hb
    rcases List.mem_append.1 hp with h1 | h1
    · exact h.valid x hx p h1
    · exact k.valid y hy p h1
  valid' := by
    unfold OpExpr.mul
    rw [Lin.mul_eq_fold]
    refine Lin.mem_fold_add (fun k : OperatorProduct => ∀ p ∈ k, p.Valid o'.spaces.length) _ _ _ [] (by simp) ?_
    intro b hb p hp
    obtain ⟨x, hx, hb⟩ := List.mem_flatMap.1 hb
    obtain ⟨y, hy, rfl⟩ := List.mem_map.1 hb
    rcases List.mem_append.1 hp with h1 | h1
    · exact h.valid' x hx p h1
    · exact k.valid' y hy p h1
  eval φ := by
    have key : ∀ (φ : OperatorProduct → M) {E F : OpExpr}, Lin.Ok E → Lin.Ok F → Lin.eval φ (OpExpr.mul E F) = Lin.eval (fun w => Lin.eval (fun w' => φ (w ++ w')) F) E := by
      intro φ E F hE hF
      unfold OpExpr.mul
      rw [Lin.eval_mul φ (word_congr φ) _ hE hF]
      unfold Lin.eval
      congr 1
      apply List.map_congr_left
      intro p _
      rw [List.smul_sum, List.map_map]
      congr 1
      apply List.map_congr_left
      intro q _
      simp only [Function.comp, smul_smul]
      rfl
    rw [key φ h.ok' k.ok', key _ h.ok k.ok, h.eval]
    simp only [k.eval, List.map_append]

theorem SameExpr.smul (h : SameExpr π o o' M E E') {c : Rational} (hc : Canon c) : SameExpr π o o' M (Lin.smul E c) (Lin.smul E' c) where
  ok := (Lin.smul_spec h.ok hc).1
  ok' := (Lin.smul_spec h.ok' hc).1
  valid := by
    intro q hq
    obtain ⟨r, hr, rfl⟩ := List.mem_map.1 hq
    exact h.valid r hr
  valid' := by
    intro q hq
    obtain ⟨r, hr, rfl⟩ := List.mem_map.1 hq
    exact h.valid' r hr
  eval φ := by
    have key : ∀ (φ : OperatorProduct → M) {E : OpExpr}, Lin.Ok E → Lin.eval φ (Lin.smul E c) = toRat c • Lin.eval φ E := by
      intro φ E hE
      unfold Lin.eval Lin.smul
      rw [List.smul_sum, List.map_map, List.map_map]
      congr 1
      apply List.map_congr_left
      intro p hp
      simp only [Function.comp, smul_smul]
      rw [toRat_mul, mul_comm]
    rw [key φ h.ok', key _ h.ok, h.eval]

theorem SameExpr.nil : SameExpr π o o' M [] [] := ⟨Lin.ok_nil, Lin.ok_nil, by simp, by simp, fun _ => rfl⟩

theorem SameExpr.comm (h : SameExpr π o o' M E E') (k : SameExpr π o o' M F F') : SameExpr π o o' M (OpExpr.commutator E F) (OpExpr.commutator E' F') :=
  (h.mul k).minus (k.mul h)

theorem SameExpr.bchLoop (k : SameExpr π o o' M F F') : ∀ (n i : Nat) {r r' t t' : OpExpr}, SameExpr π o o' M r r' → SameExpr π o o' M t t' →
    SameExpr π o o' M (OpExpr.bchLoop F i n r t) (OpExpr.bchLoop F' i n r' t')
  | 0, _, _, _, _, _, hr, _ => hr
  | n + 1, i, _, _, _, _, hr, ht => by
    have hc := (ht.comm k).smul (c := Rational.mk2 1 ((i + 1 : Nat) : Int)) (canon_mk2 1 _ (by omega))
    exact SameExpr.bchLoop k n (i + 1) (hr.plus hc) hc

theorem SameExpr.bch (h : SameExpr π o o' M E E') (k : SameExpr π o o' M F F') (n : Int) : SameExpr π o o' M (OpExpr.bchSeries E F n) (OpExpr.bchSeries E' F' n) :=
  SameExpr.bchLoop k _ _ (SameExpr.nil.plus h) h

theorem SameExpr.adj (ho : SameSpaces π o o') (h8 : o.spaces.length ≤ 8) (h : SameExpr π o o' M E E') :
    SameExpr π o o' M (OpExpr.adjoint o.spaces.length E) (OpExpr.adjoint o'.spaces.length E') where
  ok := (Lin.fold_add E _ _ h.ok.canon [] Lin.ok_nil).1
  ok' := (Lin.fold_add E' _ _ h.ok'.canon [] Lin.ok_nil).1
  valid := adjoint_expr_valid h8 h.valid
  valid' := adjoint_expr_valid (by rw [ho.num]; exact h8) h.valid'
  eval φ := by
    unfold OpExpr.adjoint
    rw [Lin.eval_mapKeys φ (word_congr φ) _ h.ok', Lin.eval_mapKeys _ (word_congr _) _ h.ok]
    have e1 : ∀ (g : OperatorProduct → OperatorProduct) (ψ : OperatorProduct → M) (G : OpExpr),
        (G.map (fun p => toRat p.2 • ψ (g p.1))).sum = Lin.eval (fun w => ψ (g w)) G := fun _ _ _ => rfl
    rw [e1, e1 (OperatorProduct.adjoint o.spaces.length) (fun w => φ (w.map (Operator.move π))), h.eval]
    congr 1
    funext w
    congr 1
    unfold OperatorProduct.adjoint
    rw [List.map_reverse, List.map_map, List.map_map]
    congr 1
    apply List.map_congr_left
    intro p _
    exact move_adjoint ho h8 p

/-! ### `op` -/

theorem operator_move (h8 : o.spaces.length ≤ 8) (hr : ∀ x (s : Nat), o.labelToSpace x = .ok (s : Int) → s < o.spaces.length) (hl : ∀ x (s : Nat), o'.labelToSpace x = .ok ((π s : Nat) : Int) ↔ o.labelToSpace x = .ok (s : Int)) (label : Str) (t : Component) :
    Component.operator o' label t = Operator.move π (Component.operator o label t) := by
  have hc : ∀ b s, t.count o' b s = t.count o b (π.symm s) := by
    intro b s
    unfold Component.count
    congr 2
    apply List.filter_congr
    intro x _
    congr 1
    have := hl x.1 (π.symm s)
    rw [Equiv.apply_symm_apply] at this
    simp only [this]
  unfold Component.operator Operator.move
  congr 1
  apply gm_ext
  intro s hs
  rw [gm_get_tab, gm_get_tab, if_pos hs, if_pos hs, gm_get_tab, hc, hc]
  split
  · rfl
  · rename_i h
    have h0 : ∀ b, t.count o b (π.symm s) = 0 := by
      intro b
      unfold Component.count
      rw [List.filter_eq_nil_iff.2]
      · rfl
      · intro x _ h'
        simp only [Bool.and_eq_true, decide_eq_true_eq] at h'
        have := hr x.1 _ h'.2
        omega
    rw [h0, h0]

theorem operator_valid (hr : ∀ x (s : Nat), o.labelToSpace x = .ok (s : Int) → s < o.spaces.length) (label : Str) (t : Component) :
    (Component.operator o label t).Valid o.spaces.length := by
  intro s
  have hg : (Component.operator o label t).gm.get s = if s < 8 then (t.count o true s, t.count o false s) else (0, 0) := gm_get_tab _ _
  unfold GraphMatrix.cre GraphMatrix.ann
  rw [hg]
  have h0 : o.spaces.length ≤ s → ∀ b, t.count o b s = 0 := by
    intro hs b
    unfold Component.count
    rw [List.filter_eq_nil_iff.2]
    · rfl
    · intro x _ h
      simp only [Bool.and_eq_true, decide_eq_true_eq] at h
      have := hr x.1 s h.2
      omega
  have h1 : ∀ b, 0 ≤ t.count o b s := fun b => by unfold Component.count; omega
  split
  · exact ⟨h1 _, h1 _, fun hs => ⟨h0 hs _, h0 hs _⟩⟩
  · simp

theorem eval_unique {E : OpExpr} (hE : Lin.WF E) {L : List OperatorProduct} (hn : L.Nodup) (hc : ∀ k, Lin.coef E k = if k ∈ L then 1 else 0)
    (φ : OperatorProduct → M) : Lin.eval φ E = (L.map φ).sum := by
  have h1 : ∀ p ∈ E, p.1 ∈ L ∧ toRat p.2 = 1 := by
    intro p hp
    have a := Lin.coef_of_mem hE.toOk hp
    have b := hE.nonzero p hp
    rw [hc] at a
    split at a
    · rename_i h; exact ⟨h, a.symm⟩
    · exact absurd a.symm b
  have h2 : (E.map Prod.fst).Perm L := by
    refine (List.perm_ext_iff_of_nodup ?_ hn).2 ?_
    · refine List.pairwise_map.2 (hE.toOk.sorted.imp ?_)
      intro p q hlt he
      rw [he] at hlt
      rw [StrictWeak.irrefl] at hlt
      cases hlt
    · intro k
      constructor
      · intro hk
        obtain ⟨p, hp, rfl⟩ := List.mem_map.1 hk
        exact (h1 p hp).1
      · intro hk
        have := hc k
        rw [if_pos hk] at this
        unfold Lin.coef at this
        cases hf : SMap.find k E with
        | none => rw [hf] at this; simp at this
        | some w =>
          obtain ⟨q, hq, h3, _⟩ := SMap.find_some_mem hf
          exact List.mem_map.2 ⟨q, hq, eqv_eq.1 h3⟩
  rw [← (h2.map φ).sum_eq, List.map_map]
  unfold Lin.eval
  congr 1
  apply List.map_congr_left
  intro p hp
  rw [(h1 p hp).2, one_smul]
  rfl

theorem SameExpr.op (ho : SameSpaces π o o') (h8 : o.spaces.length ≤ 8)
    (hl : ∀ x (s : Nat), o'.labelToSpace x = .ok ((π s : Nat) : Int) ↔ o.labelToSpace x = .ok (s : Int))
    (hr : ∀ x (s : Nat), o.labelToSpace x = .ok (s : Int) → s < o.spaces.length) (label : Str) (cs : List Str) (unique : Bool)
    (hc : ∀ c ∈ cs, Component.Registered o (findOps c)) :
    ∃ E E', OpExpr.make o label cs unique = .ok E ∧ OpExpr.make o' label cs unique = .ok E' ∧ SameExpr π o o' M E E' := by
  have hc' : ∀ c ∈ cs, Component.Registered o' (findOps c) := by
    intro c hcs x hx
    obtain ⟨s, hs, h⟩ := hc c hcs x hx
    exact ⟨π s, by rw [ho.num]; exact (ho.lt s).2 hs, (hl x.1 s).2 h⟩
  have h8' : o'.spaces.length ≤ 8 := by rw [ho.num]; exact h8
  have hop := fun t => operator_move h8 hr hl label t
  have hval := fun t => operator_valid hr label t
  have hval' : ∀ t, (Component.operator o' label t).Valid o'.spaces.length := fun t => by rw [hop t]; exact move_valid ho (hval t)
  refine ⟨_, _, make_loop h8 label unique cs hc [], make_loop h8' label unique cs hc' [], ?_⟩
  cases unique with
  | false =>
    simp only [Bool.false_and, Bool.false_eq_true, if_false]
    have c1 : Canon (Rational.mk2 1 1) := canon_mk2 1 1 (by decide)
    refine ⟨(Lin.fold_add cs _ _ (fun _ _ => c1) [] Lin.ok_nil).1, (Lin.fold_add cs _ _ (fun _ _ => c1) [] Lin.ok_nil).1, ?_, ?_, fun φ => ?_⟩
    · refine Lin.mem_fold_add (fun k : OperatorProduct => ∀ p ∈ k, p.Valid o.spaces.length) _ _ _ [] (by simp) ?_
      intro c _ p hp
      rw [List.mem_singleton] at hp
      rw [hp]; exact hval _
    · refine Lin.mem_fold_add (fun k : OperatorProduct => ∀ p ∈ k, p.Valid o'.spaces.length) _ _ _ [] (by simp) ?_
      intro c _ p hp
      rw [List.mem_singleton] at hp
      rw [hp]; exact hval' _
    · rw [Lin.eval_fold_add φ (word_congr φ) _ _ _ (fun _ _ => c1) [] Lin.ok_nil, Lin.eval_fold_add _ (word_congr _) _ _ _ (fun _ _ => c1) [] Lin.ok_nil]
      simp only [hop]
      rfl
  | true =>
    obtain ⟨a1, a2⟩ := unique_fold (o := o) label cs [] Lin.wf_nil (fun k => by simp)
    obtain ⟨b1, b2⟩ := unique_fold (o := o') label cs [] Lin.wf_nil (fun k => by simp)
    have mem : ∀ {r : OSI} {E : OpExpr}, Lin.WF E → (∀ k, Lin.coef E k = if Lin.coef ([] : OpExpr) k = 1 ∨ ∃ c ∈ cs, k = [Component.operator r label (findOps c)] then 1 else 0) →
        (∀ t, (Component.operator r label t).Valid r.spaces.length) → ∀ q ∈ E, ∀ p ∈ q.1, p.Valid r.spaces.length := by
      intro r E hE hc hv q hq p hp
      have h1 := Lin.coef_of_mem hE.toOk hq
      have h2 := hE.nonzero q hq
      rw [hc] at h1
      split at h1
      · rename_i h
        rcases h with h | ⟨c, _, h⟩
        · simp at h
        · rw [h, List.mem_singleton] at hp
          rw [hp]; exact hv _
      · exact absurd h1.symm h2
    refine ⟨a1.toOk, b1.toOk, mem a1 a2 hval, mem b1 b2 hval', fun φ => ?_⟩
    have hinj : ∀ p ∈ cs.map (fun c => Component.operator o label (findOps c)), ∀ q ∈ cs.map (fun c => Component.operator o label (findOps c)),
        Operator.move π p = Operator.move π q → p = q := by
      intro p hp q hq h
      obtain ⟨c, _, rfl⟩ := List.mem_map.1 hp
      obtain ⟨d, _, rfl⟩ := List.mem_map.1 hq
      exact move_inj ho h8 (hval _) (hval _) h
    have hd : ((cs.map (fun c => Component.operator o label (findOps c))).dedup.map (fun p => [p])).Nodup :=
      (List.nodup_dedup _).map (fun a b h => by simpa using h)
    have hd' : (((cs.map (fun c => Component.operator o label (findOps c))).dedup.map (fun p => [p])).map (fun w => w.map (Operator.move π))).Nodup := by
      refine hd.map_on ?_
      intro a ha b hb h
      obtain ⟨p, hp, rfl⟩ := List.mem_map.1 ha
      obtain ⟨q, hq, rfl⟩ := List.mem_map.1 hb
      simp only [List.map_cons, List.map_nil, List.cons.injEq, and_true] at h
      rw [hinj p (List.mem_dedup.1 hp) q (List.mem_dedup.1 hq) h]
    rw [eval_unique b1 hd' ?_ φ, eval_unique a1 hd ?_, List.map_map]
    · rfl
    · intro k
      rw [a2 k]
      congr 1
      simp only [Lin.coef_nil, zero_ne_one, false_or, List.mem_map, List.mem_dedup, eq_iff_iff]
      constructor
      · rintro ⟨c, hc, rfl⟩; exact ⟨_, ⟨c, hc, rfl⟩, rfl⟩
      · rintro ⟨_, ⟨c, hc, rfl⟩, rfl⟩; exact ⟨c, hc, rfl⟩
    · intro k
      rw [b2 k]
      congr 1
      simp only [Lin.coef_nil, zero_ne_one, false_or, List.mem_map, List.mem_dedup, eq_iff_iff, hop]
      constructor
      · rintro ⟨c, hc, rfl⟩; exact ⟨_, ⟨_, ⟨c, hc, rfl⟩, rfl⟩, rfl⟩
      · rintro ⟨_, ⟨_, ⟨c, hc, rfl⟩, rfl⟩, rfl⟩; exact ⟨c, hc, rfl⟩

/-! ### Programs -/

theorem SameExpr.neg (h : SameExpr π o o' M E E') : SameExpr π o o' M (Lin.neg E) (Lin.neg E') := SameExpr.nil.minus h

theorem SameExpr.run (ho : SameSpaces π o o') (h8 : o.spaces.length ≤ 8)
    (hl : ∀ x (s : Nat), o'.labelToSpace x = .ok ((π s : Nat) : Int) ↔ o.labelToSpace x = .ok (s : Int))
    (hr : ∀ x (s : Nat), o.labelToSpace x = .ok (s : Int) → s < o.spaces.length) : ∀ {P : OpProg}, P.Fits o →
    ∃ E E', P.run o = .ok E ∧ P.run o' = .ok E' ∧ SameExpr π o o' M E E'
  | .op label cs unique, h => SameExpr.op ho h8 hl hr label cs unique h
  | .plus a b, h => by
    obtain ⟨E, E', h1, h2, h3⟩ := SameExpr.run ho h8 hl hr h.1
    obtain ⟨F, F', k1, k2, k3⟩ := SameExpr.run ho h8 hl hr h.2
    exact ⟨_, _, by rw [OpProg.run, h1, k1]; rfl, by rw [OpProg.run, h2, k2]; rfl, h3.plus k3⟩
  | .minus a b, h => by
    obtain ⟨E, E', h1, h2, h3⟩ := SameExpr.run ho h8 hl hr h.1
    obtain ⟨F, F', k1, k2, k3⟩ := SameExpr.run ho h8 hl hr h.2
    exact ⟨_, _, by rw [OpProg.run, h1, k1]; rfl, by rw [OpProg.run, h2, k2]; rfl, h3.minus k3⟩
  | .mul a b, h => by
    obtain ⟨E, E', h1, h2, h3⟩ := SameExpr.run ho h8 hl hr h.1
    obtain ⟨F, F', k1, k2, k3⟩ := SameExpr.run ho h8 hl hr h.2
    exact ⟨_, _, by rw [OpProg.run, h1, k1]; rfl, by rw [OpProg.run, h2, k2]; rfl, h3.mul k3⟩
  | .comm a b, h => by
    obtain ⟨E, E', h1, h2, h3⟩ := SameExpr.run ho h8 hl hr h.1
    obtain ⟨F, F', k1, k2, k3⟩ := SameExpr.run ho h8 hl hr h.2
    exact ⟨_, _, by rw [OpProg.run, h1, k1]; rfl, by rw [OpProg.run, h2, k2]; rfl, h3.comm k3⟩
  | .bch a b n, h => by
    obtain ⟨E, E', h1, h2, h3⟩ := SameExpr.run ho h8 hl hr h.1
    obtain ⟨F, F', k1, k2, k3⟩ := SameExpr.run ho h8 hl hr h.2
    exact ⟨_, _, by rw [OpProg.run, h1, k1]; rfl, by rw [OpProg.run, h2, k2]; rfl, h3.bch k3 n⟩
  | .neg a, h => by
    obtain ⟨E, E', h1, h2, h3⟩ := SameExpr.run (P := a) ho h8 hl hr h
    exact ⟨_, _, by rw [OpProg.run, h1]; rfl, by rw [OpProg.run, h2]; rfl, h3.neg⟩
  | .scale n d a, h => by
    obtain ⟨E, E', h1, h2, h3⟩ := SameExpr.run (P := a) ho h8 hl hr h.2
    exact ⟨_, _, by rw [OpProg.run, h1]; rfl, by rw [OpProg.run, h2]; rfl, h3.smul (canon_mk2 n d h.1)⟩
  | .adj a, h => by
    obtain ⟨E, E', h1, h2, h3⟩ := SameExpr.run (P := a) ho h8 hl hr h
    exact ⟨_, _, by rw [OpProg.run, h1]; rfl, by rw [OpProg.run, h2]; rfl, h3.adj ho h8⟩

end programs

/-! ## Histories of `add_space` calls -/

/-- the permutation that takes positions in `L` to positions in `L'` -/
def posPerm {α : Type} [DecidableEq α] (L L' : List α) (hn : L.Nodup) (hn' : L'.Nodup) (hp : L.Perm L') : Equiv.Perm Nat where
  toFun s := if h : s < L.length then L'.idxOf L[s] else s
  invFun s := if h : s < L'.length then L.idxOf L'[s] else s
  left_inv s := by
    have hlen := hp.length_eq
    dsimp only
    split
    · rename_i h
      have hm : L[s] ∈ L' := hp.subset (List.getElem_mem h)
      have := List.idxOf_lt_length_of_mem hm
      rw [dif_pos this, List.getElem_idxOf, hn.idxOf_getElem]
    · rename_i h
      rw [dif_neg (by omega)]
  right_inv s := by
    have hlen := hp.length_eq
    dsimp only
    split
    · rename_i h
      have hm : L'[s] ∈ L := hp.symm.subset (List.getElem_mem h)
      have := List.idxOf_lt_length_of_mem hm
      rw [dif_pos this, List.getElem_idxOf, hn'.idxOf_getElem]
    · rename_i h
      rw [dif_neg (by omega)]

theorem regSpec_adds {calls : List RegOp} (ha : OnlyAdds calls) : ∀ acc : List (Char × FieldType × SpaceType × List Str),
    calls.foldl (fun acc op => match op with
    | .reset => []
    | .add l f s i _ => acc ++ [(l, f, s, i)]) acc = acc ++ calls.filterMap (fun op => match op with
    | .reset => none
    | .add l f s i _ => some (l, f, s, i)) := by
  induction calls with
  | nil => intro acc; simp
  | cons c calls ih =>
    intro acc
    obtain ⟨l, f, s, i, e, rfl⟩ := ha c (by simp)
    rw [List.foldl_cons, ih (fun c hc => ha c (by simp [hc])), List.filterMap_cons]
    simp

theorem regSpec_calls {calls : List RegOp} (ha : OnlyAdds calls) : regSpec calls = calls.filterMap (fun op => match op with
    | .reset => none
    | .add l f s i _ => some (l, f, s, i)) := regSpec_adds ha []

/-- the registries after two histories of the same calls in different orders -/
theorem same_of_histories {calls calls' : List RegOp} (hp : calls.Perm calls') (ha : OnlyAdds calls) (hok : allOk OSI.empty calls) (hok' : allOk OSI.empty calls') :
    ∃ π : Equiv.Perm Nat, SameSpaces π (runReg OSI.empty calls) (runReg OSI.empty calls') ∧
      (∀ x (s : Nat), (runReg OSI.empty calls').labelToSpace x = .ok ((π s : Nat) : Int) ↔ (runReg OSI.empty calls).labelToSpace x = .ok (s : Int)) ∧
      (∀ x (s : Nat), (runReg OSI.empty calls).labelToSpace x = .ok (s : Int) → s < (runReg OSI.empty calls).spaces.length) ∧
      ∀ s < (runReg OSI.empty calls).spaces.length, ∃ x, (runReg OSI.empty calls).labelToSpace x = .ok (s : Int) := by
  obtain ⟨a1, a2, a3, a4, a5, a6⟩ := C10_registry_consistent calls hok
  obtain ⟨b1, b2, b3, b4, b5, b6⟩ := C10_registry_consistent calls' hok'
  have ha' : OnlyAdds calls' := fun c hc => ha c (hp.symm.subset hc)
  generalize runReg OSI.empty calls = o at *
  generalize runReg OSI.empty calls' = o' at *
  have hobs : (o.spaces.map obsSpace).Perm (o'.spaces.map obsSpace) := by
    rw [a1, b1, regSpec_calls ha, regSpec_calls ha']
    exact hp.filterMap _
  have hlab : (o.spaces.map (·.label)).Perm (o'.spaces.map (·.label)) := by
    have := hobs.map Prod.fst
    rwa [List.map_map, List.map_map] at this
  have hlen : o'.spaces.length = o.spaces.length := by simpa using hlab.length_eq.symm
  let π := posPerm _ _ a3 b3 hlab
  have hπ : ∀ s (h : s < o.spaces.length), π s = (o'.spaces.map (·.label)).idxOf (o.spaces[s].label) := by
    intro s h
    have : π s = if h : s < (o.spaces.map (·.label)).length then (o'.spaces.map (·.label)).idxOf (o.spaces.map (·.label))[s] else s := rfl
    rw [this, dif_pos (by simpa using h)]
    simp
  have hπ' : ∀ s, ¬ s < o.spaces.length → π s = s := by
    intro s h
    have : π s = if h : s < (o.spaces.map (·.label)).length then (o'.spaces.map (·.label)).idxOf (o.spaces.map (·.label))[s] else s := rfl
    rw [this, dif_neg (by simpa using h)]
  have hlt : ∀ s, s < o.spaces.length → π s < o'.spaces.length := by
    intro s h
    rw [hπ s h]
    have hm : o.spaces[s].label ∈ o'.spaces.map (·.label) := hlab.subset (List.mem_map_of_mem (List.getElem_mem h))
    simpa using List.idxOf_lt_length_of_mem hm
  have hget : ∀ s (h : s < o.spaces.length), (o'.spaces[π s]'(hlt s h)).label = o.spaces[s].label := by
    intro s h
    have hm : o.spaces[s].label ∈ o'.spaces.map (·.label) := hlab.subset (List.mem_map_of_mem (List.getElem_mem h))
    have h1 := List.getElem_idxOf (List.idxOf_lt_length_of_mem hm)
    have h2 : (o'.spaces.map (·.label))[π s]'(by simpa using hlt s h) = o.spaces[s].label := by
      simp only [hπ s h]; exact h1
    simpa using h2
  have hlabel : ∀ (r : OSI) (s : Nat) (x : Char), r.label (s : Int) = .ok x ↔ ∃ h : s < r.spaces.length, r.spaces[s].label = x := by
    intro r s x
    unfold OSI.label OSI.space
    rw [if_pos (by omega), Int.toNat_natCast]
    by_cases h : s < r.spaces.length
    · rw [List.getElem?_eq_getElem h]
      simp [bind, Except.bind, pure, Except.pure, h]
    · rw [List.getElem?_eq_none (by omega)]
      simp [bind, Except.bind, h]
  have hls : ∀ x (s : Nat), o.labelToSpace x = .ok (s : Int) ↔ ∃ h : s < o.spaces.length, o.spaces[s].label = x := by
    intro x s
    rw [a5, hlabel]
    constructor
    · exact fun h => h.2.2
    · exact fun h => ⟨by omega, by unfold OSI.numSpaces; exact_mod_cast h.1, h⟩
  have hls' : ∀ x (s : Nat), o'.labelToSpace x = .ok (s : Int) ↔ ∃ h : s < o'.spaces.length, o'.spaces[s].label = x := by
    intro x s
    rw [b5, hlabel]
    constructor
    · exact fun h => h.2.2
    · exact fun h => ⟨by omega, by unfold OSI.numSpaces; exact_mod_cast h.1, h⟩
  refine ⟨π, ⟨hlen, fun s => ⟨fun h => ?_, fun h => by rw [← hlen]; exact hlt s h⟩, fun s hs => ?_⟩, fun x s => ?_, fun x s h => ((hls x s).1 h).1, fun s hs => ⟨_, (hls _ s).2 ⟨hs, rfl⟩⟩⟩
  · by_contra hn
    rw [hπ' s hn] at h
    exact hn h
  · have h1 := hlt s hs
    have hty : (o'.spaces[π s]).spaceType = o.spaces[s].spaceType := by
      have hm : obsSpace o.spaces[s] ∈ o'.spaces.map obsSpace := hobs.subset (List.mem_map_of_mem (List.getElem_mem hs))
      obtain ⟨r, hr, he⟩ := List.mem_map.1 hm
      obtain ⟨i, hi, rfl⟩ := List.getElem_of_mem hr
      have hl : o'.spaces[i].label = o.spaces[s].label := congrArg Prod.fst he
      have : i = π s := by
        have hz := hget s hs
        rw [← hl] at hz
        have hinj := List.nodup_iff_injective_get.1 b3
        have hinj' := @hinj ⟨π s, by simpa using h1⟩ ⟨i, by simpa using hi⟩ (by simpa using hz)
        exact (Fin.mk.inj hinj').symm
      subst this
      exact congrArg (fun t => t.2.2.1) he
    unfold OSI.spaceType OSI.space
    rw [if_pos (by omega), if_pos (by omega), Int.toNat_natCast, Int.toNat_natCast, List.getElem?_eq_getElem h1, List.getElem?_eq_getElem hs]
    simp [bind, Except.bind, pure, Except.pure, hty]
  · rw [hls, hls']
    constructor
    · rintro ⟨h, hx⟩
      have hs : s < o.spaces.length := by
        by_contra hn
        have := hπ' s hn
        omega
      exact ⟨hs, by rw [← hget s hs]; exact hx⟩
    · rintro ⟨h, hx⟩
      exact ⟨hlt s h, by rw [hget s h]; exact hx⟩

/-- **C92**: the order of the `add_space` calls does not matter. If the same calls are made in two orders, both accepted, every program that builds an operator
expression from the registered labels runs in both registries, and the contractions of the two expressions have the same value, whatever the orbitals of
the spaces (given by label), for all antisymmetric tensors. -/
theorem C92_registration_order {Ω R A : Type} [Inhabited Ω] [DecidableEq Ω] [CommRing R] [Ring A] [Algebra R A] [Algebra ℚ R] [Algebra ℚ A] [IsScalarTower ℚ R A]
    {calls calls' : List RegOp} (hp : calls.Perm calls') (ha : OnlyAdds calls) (hok : allOk OSI.empty calls) (hok' : allOk OSI.empty calls') (h8 : calls.length ≤ 8)
    {P : OpProg} (hP : P.Fits (runReg OSI.empty calls)) :
    ∃ E E', P.run (runReg OSI.empty calls) = .ok E ∧ P.run (runReg OSI.empty calls') = .ok E' ∧
      ∀ (cfg : WickCfg) (f : Rational) (minr maxr : Int) (e e' : Expr), Canon f →
        contractExpr (runReg OSI.empty calls) cfg f E minr maxr = .ok e → contractExpr (runReg OSI.empty calls') cfg f E' minr maxr = .ok e' →
        ∀ v v' : OrbSystem Ω R A, v'.T = v.T → v'.op = v.op →
          (∀ x s s', (runReg OSI.empty calls).labelToSpace x = .ok s → (runReg OSI.empty calls').labelToSpace x = .ok s' → v'.dom s' = v.dom s) →
          v.Antisymmetric → v.Anticommute → Lin.eval v'.value e' = Lin.eval v.value e := by
  obtain ⟨π, ho, hl, hr, hs⟩ := same_of_histories hp ha hok hok'
  have hlen : (runReg OSI.empty calls).spaces.length ≤ 8 := by
    have h1 := (C10_registry_consistent calls hok).1
    have h2 := congrArg List.length h1
    rw [List.length_map, regSpec_calls ha] at h2
    rw [h2]
    exact le_trans (List.length_filterMap_le _ calls) h8
  obtain ⟨E, E', h1, h2, h3⟩ := SameExpr.run (M := A) ho hlen hl hr hP
  refine ⟨E, E', h1, h2, ?_⟩
  intro cfg f minr maxr e e' hf he he' v v' hT hO hd hv hac
  refine h3.contract ho hlen hf he he' hT hO ?_ hv hac
  intro s hs'
  obtain ⟨x, hx⟩ := hs s hs'
  exact hd x _ _ hx ((hl x s).2 hx)

/-! ## Example -/

/-- the calls of `srHistory` in the other order -/
def srSwapped : List RegOp := [.add 'v' .fermion .unoccupied [] [], .add 'o' .fermion .occupied [] []]

/-- the similarity-transformed operator `f + [f, t]` -/
def fBar : OpProg := .bch (.op ['f'] ["o+ v".toList, "v+ v".toList] true) (.op ['t'] ["v+ o".toList] true) 1

/-- the tensors of `grSys`; the occupied space has the orbitals 0 and 1, the unoccupied one 1 and 2 -/
noncomputable def grOrb (swap : Bool) : OrbSystem ℤ ℚ (ExteriorAlgebra ℚ (ℤ × Bool → ℚ)) :=
  ⟨fun s => if (s = 0) = (swap = false) then {0, 1} else {1, 2}, grSys.T, grSys.op⟩

/-- the program and the contraction in one registry -/
def fBarRun (h : List RegOp) : Res (OpExpr × Expr) := do
  let E ← fBar.run (runReg OSI.empty h)
  return (E, ← contractExpr (runReg OSI.empty h) {} ⟨1, 1⟩ E 0 4)

example : ∃ E E' e e', fBar.run (runReg OSI.empty srHistory) = .ok E ∧ fBar.run (runReg OSI.empty srSwapped) = .ok E' ∧ E ≠ E' ∧
    contractExpr (runReg OSI.empty srHistory) {} ⟨1, 1⟩ E 0 4 = .ok e ∧ contractExpr (runReg OSI.empty srSwapped) {} ⟨1, 1⟩ E' 0 4 = .ok e' ∧ e ≠ e' ∧ e.length = 6 ∧
    Lin.eval (grOrb true).value e' = Lin.eval (grOrb false).value e := by
  obtain ⟨⟨E, e⟩, hE, h1⟩ := ok_of_check (x := fBarRun srHistory) (fun p => match fBarRun srSwapped with | .ok q => decide (p.1 ≠ q.1 ∧ p.2 ≠ q.2 ∧ p.2.length = 6) | .error _ => false) (by decide +kernel)
  cases hE' : fBarRun srSwapped with
  | error _ => rw [hE'] at h1; cases h1
  | ok q =>
    obtain ⟨E', e'⟩ := q
    rw [hE'] at h1
    obtain ⟨h2, h3, h4⟩ := of_decide_eq_true h1
    have split : ∀ (h : List RegOp) (E : OpExpr) (e : Expr), fBarRun h = .ok (E, e) → fBar.run (runReg OSI.empty h) = .ok E ∧ contractExpr (runReg OSI.empty h) {} ⟨1, 1⟩ E 0 4 = .ok e := by
      intro h E e hr
      unfold fBarRun at hr
      cases hx : fBar.run (runReg OSI.empty h) with
      | error _ => rw [hx] at hr; cases hr
      | ok F =>
        rw [hx] at hr
        simp only [bind, Except.bind, pure, Except.pure] at hr
        cases hy : contractExpr (runReg OSI.empty h) {} ⟨1, 1⟩ F 0 4 with
        | error _ => rw [hy] at hr; cases hr
        | ok g => rw [hy] at hr; cases hr; exact ⟨rfl, hy⟩
    obtain ⟨a1, a2⟩ := split _ _ _ hE
    obtain ⟨b1, b2⟩ := split _ _ _ hE'
    refine ⟨E, E', e, e', a1, b1, h2, a2, b2, h3, h4, ?_⟩
    have hreg : ∀ c ∈ ["o+ v".toList, "v+ v".toList, "v+ o".toList], Component.Registered (runReg OSI.empty srHistory) (findOps c) := by
      have : ∀ c ∈ ["o+ v".toList, "v+ v".toList, "v+ o".toList], ∀ x ∈ findOps c, x.1 = 'o' ∨ x.1 = 'v' := by decide +kernel
      intro c hc x hx
      rcases this c hc x hx with h | h <;> rw [h]
      · exact ⟨0, by decide, by decide⟩
      · exact ⟨1, by decide, by decide⟩
    have hfit : fBar.Fits (runReg OSI.empty srHistory) := by
      refine ⟨fun c hc => hreg c ?_, fun c hc => hreg c ?_⟩ <;> simp at hc ⊢
      · rcases hc with h | h <;> simp [h]
      · simp [hc]
    obtain ⟨F, F', f1, f2, f3⟩ := C92_registration_order (Ω := ℤ) (R := ℚ) (A := ExteriorAlgebra ℚ (ℤ × Bool → ℚ)) (calls := srHistory) (calls' := srSwapped)
      (List.Perm.swap _ _ _) (by unfold srHistory; intro c hc; simp at hc; rcases hc with rfl | rfl <;> exact ⟨_, _, _, _, _, rfl⟩)
      ⟨by decide, by decide, trivial⟩ ⟨by decide, by decide, trivial⟩ (by decide) hfit
    rw [a1] at f1
    rw [b1] at f2
    cases f1; cases f2
    refine f3 {} ⟨1, 1⟩ 0 4 e e' (by decide) a2 b2 (grOrb false) (grOrb true) rfl rfl ?_ grSys_anti grSys_comm
    intro x s s' hs hs'
    have key : ∀ x : Char, (runReg OSI.empty srHistory).labelToSpace x = if x = 'v' then .ok 1 else if x = 'o' then .ok 0 else .error .throw := by
      intro x
      have : (runReg OSI.empty srHistory).labelPos = [('v', 1), ('o', 0)] := by decide
      unfold OSI.labelToSpace OSI.mapGet
      rw [this]
      by_cases h1 : x = 'v'
      · subst h1; decide
      · by_cases h2 : x = 'o'
        · subst h2; decide
        · simp [h1, h2, Ne.symm h1, Ne.symm h2]
    have key' : ∀ x : Char, (runReg OSI.empty srSwapped).labelToSpace x = if x = 'v' then .ok 0 else if x = 'o' then .ok 1 else .error .throw := by
      intro x
      have : (runReg OSI.empty srSwapped).labelPos = [('o', 1), ('v', 0)] := by decide
      unfold OSI.labelToSpace OSI.mapGet
      rw [this]
      by_cases h1 : x = 'v'
      · subst h1; decide
      · by_cases h2 : x = 'o'
        · subst h2; decide
        · simp [h1, h2, Ne.symm h1, Ne.symm h2]
    rw [key] at hs
    rw [key'] at hs'
    by_cases h1 : x = 'v'
    · simp only [h1, if_true] at hs hs'; cases hs; cases hs'; simp [grOrb]
    · by_cases h2 : x = 'o'
      · subst h2; simp at hs hs'; subst hs; subst hs'; simp [grOrb]
      · simp [h1, h2] at hs

end Wick
end Wicked
