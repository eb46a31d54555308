import Verif.Spec.Relabel
import Verif.Props.WickSum
import Verif.Props.Linked
import Verif.Props.Program
/-! # C91: the labels of operators are only names -/
namespace Wicked
open CppLt CppEq Rational Lin
namespace Wick
variable {Ω R A : Type} [Inhabited Ω] [DecidableEq Ω] [CommRing R] [Ring A] [Algebra R A] [Algebra ℚ R] [Algebra ℚ A] [IsScalarTower ℚ R A]

theorem slotsFrom_relabel (ns : Nat) (ρ : Str → Str) (ops : OperatorProduct) : ∀ j, slotsFrom ns j (ops.map (Operator.relabel ρ)) = slotsFrom ns j ops := by
  induction ops with
  | nil => intro j; rfl
  | cons p ops ih =>
    intro j
    rw [List.map_cons, slotsFrom, slotsFrom, ih]
    rfl

theorem slots_relabel (ns : Nat) (ρ : Str → Str) (ops : OperatorProduct) : slots ns (ops.map (Operator.relabel ρ)) = slots ns ops := slotsFrom_relabel ns ρ ops 0

theorem opAt_relabel (ρ : Str → Str) {ops : OperatorProduct} {i : Nat} (hi : i < ops.length) : opAt (ops.map (Operator.relabel ρ)) i = (opAt ops i).relabel ρ := by
  unfold opAt
  simp [hi]

theorem schemes_relabel (o : OSI) (mc : Int) (ρ : Str → Str) (ops : OperatorProduct) (a b : Int) :
    schemes o mc (ops.map (Operator.relabel ρ)) a b = schemes o mc ops a b := by
  classical
  unfold schemes
  rw [slots_relabel]
  apply Finset.filter_congr
  intro S _
  unfold IsScheme
  rw [slots_relabel]

theorem conVal_pull {v : OrbSystem Ω R A} {ρ : Str → Str} (hρ : ∀ l, IsDensityLabel l → ρ l = l) (o : OSI) (L : List Slot) (x : Slot → Ω) (b : Finset Slot) :
    conVal (v.pull ρ) o L x b = conVal v o L x b := by
  unfold conVal OrbSystem.pull
  simp only [hρ _ (.inl rfl), hρ _ (.inr (.inl rfl))]
  have h : ∀ n : Nat, ρ ("lambda".toList ++ intStr (n : Int)) = "lambda".toList ++ intStr (n : Int) := fun n => hρ _ (.inr (.inr ⟨n, rfl⟩))
  simp only [h]

theorem schemeTerm_pull {v : OrbSystem Ω R A} {ρ : Str → Str} (hρ : ∀ l, IsDensityLabel l → ρ l = l) (o : OSI) (L : List Slot) (x : Slot → Ω) (S : Finset (Finset Slot)) :
    schemeTerm (v.pull ρ) o L x S = schemeTerm v o L x S := by
  unfold schemeTerm
  simp only [conVal_pull hρ]
  rfl

theorem wickSum_relabel {v : OrbSystem Ω R A} {ρ : Str → Str} (hρ : ∀ l, IsDensityLabel l → ρ l = l) (o : OSI) (mc : Int) (ops : OperatorProduct) (a b : Int)
    (w : Finset (Finset Slot) → Nat) :
    wickSum v o mc (ops.map (Operator.relabel ρ)) a b w = wickSum (v.pull ρ) o mc ops a b w := by
  unfold wickSum
  rw [slots_relabel, schemes_relabel]
  have h : ∀ x, opElements v o.spaces.length (ops.map (Operator.relabel ρ)) x = opElements (v.pull ρ) o.spaces.length ops x := by
    intro x
    unfold opElements
    rw [List.length_map]
    congr 1
    apply List.map_congr_left
    intro i hi
    rw [opAt_relabel ρ (List.mem_range.1 hi)]
    rfl
  simp only [h, schemeTerm_pull hρ]
  rfl

/-- **C91**: the labels of operators are only names: for every renaming `ρ` of the labels (other than the names of the density matrices and cumulants), the value of the
contractions of the renamed operators is the value of the contractions of the operators themselves if the tensor `ρ l` is used for the tensor `l`. The
renaming may give the same label to different operators. -/
theorem C91_labels_are_names {o : OSI} {cfg : WickCfg} {ops : OperatorProduct} (h8 : o.spaces.length ≤ 8)
    (hvo : ∀ p ∈ ops, p.Valid o.spaces.length) {f : Rational} (hf : Canon f) {minr maxr : Int} {ρ : Str → Str} (hρ : ∀ l, IsDensityLabel l → ρ l = l) {e e' : Expr}
    (h : contract o cfg f ops minr maxr = .ok e) (h' : contract o cfg f (ops.map (Operator.relabel ρ)) minr maxr = .ok e')
    {v : OrbSystem Ω R A} (hv : v.Antisymmetric) (hac : v.Anticommute) :
    Lin.eval v.value e' = Lin.eval (v.pull ρ).value e := by
  have hvo' : ∀ p ∈ ops.map (Operator.relabel ρ), p.Valid o.spaces.length := by
    intro p hp
    obtain ⟨q, hq, rfl⟩ := List.mem_map.1 hp
    exact hvo q hq
  rw [C53_wick_weighted h8 hvo hf h (v := v.pull ρ) (fun l => hv (ρ l)) hac, C53_wick_weighted h8 hvo' hf h' hv hac, wickSum_relabel hρ, List.map_map]
  rfl

/-- the expression with every product of operators replaced by another -/
def mapProducts (τ : OperatorProduct → OperatorProduct) (E : OpExpr) : OpExpr := E.foldl (fun r q => Lin.add r (τ q.1) q.2) []

theorem contractExpr_map {Ω' : Type} [Inhabited Ω'] [DecidableEq Ω'] {o o' : OSI} {cfg : WickCfg} {E : OpExpr} (h8 : o.spaces.length ≤ 8) (h8' : o'.spaces.length ≤ 8) {τ : OperatorProduct → OperatorProduct}
    (hvo : ∀ q ∈ E, ∀ p ∈ q.1, p.Valid o.spaces.length) (hvo' : ∀ q ∈ E, ∀ p ∈ τ q.1, p.Valid o'.spaces.length) (hE : ∀ q ∈ E, Canon q.2) {f : Rational} (hf : Canon f) {minr maxr : Int} {e e' : Expr}
    (h : contractExpr o cfg f E minr maxr = .ok e) (h' : contractExpr o' cfg f (mapProducts τ E) minr maxr = .ok e')
    {v : OrbSystem Ω R A} (hv : v.Antisymmetric) (hac : v.Anticommute) {v' : OrbSystem Ω' R A} (hv' : v'.Antisymmetric) (hac' : v'.Anticommute)
    (hτ : ∀ q ∈ E, ((τ q.1).map (fun p => toRat (p.factor o'.spaces.length))).prod • wickSum v' o' cfg.maxCumulant (τ q.1) minr maxr overcount =
      (q.1.map (fun p => toRat (p.factor o.spaces.length))).prod • wickSum v o cfg.maxCumulant q.1 minr maxr overcount) :
    Lin.eval v'.value e' = Lin.eval v.value e := by
  obtain ⟨ho, -, -⟩ := Lin.fold_add E (fun q => τ q.1) (fun q => q.2) hE ([] : OpExpr) Lin.ok_nil
  have hmem := Lin.mem_fold_add (fun k : OperatorProduct => ∀ p ∈ k, p.Valid o'.spaces.length) (fun q : OperatorProduct × Rational => τ q.1) (fun q => q.2) E [] (by simp) hvo'
  rw [C53_wick_expr_weighted h8 hvo hE hf h hv hac, C53_wick_expr_weighted h8' hmem ho.canon hf h' hv' hac']
  have key : ∀ (φ : OperatorProduct → A) (c : OperatorProduct → ℚ) (F : OpExpr), (F.map (fun q => (toRat f * toRat q.2 * c q.1) • φ q.1)).sum = toRat f • Lin.eval (fun k => c k • φ k) F := by
    intro φ c F
    unfold Lin.eval
    rw [List.smul_sum, List.map_map]
    congr 1
    apply List.map_congr_left
    intro q _
    simp only [Function.comp, smul_smul, mul_assoc]
  rw [key (fun k => wickSum v' o' cfg.maxCumulant k minr maxr overcount) (fun k => (k.map (fun p => toRat (p.factor o'.spaces.length))).prod),
    key (fun k => wickSum v o cfg.maxCumulant k minr maxr overcount) (fun k => (k.map (fun p => toRat (p.factor o.spaces.length))).prod)]
  congr 1
  rw [Lin.eval_fold_add _ (fun a b h => by rw [eqv_eq.1 h]) E (fun q => τ q.1) (fun q => q.2) hE [] Lin.ok_nil, Lin.eval_nil, zero_add, Lin.eval]
  congr 1
  apply List.map_congr_left
  intro q hq
  rw [hτ q hq]

/-- **C91** for expressions -/
theorem C91_labels_are_names_expr {o : OSI} {cfg : WickCfg} {E : OpExpr} (h8 : o.spaces.length ≤ 8)
    (hvo : ∀ q ∈ E, ∀ p ∈ q.1, p.Valid o.spaces.length) (hE : ∀ q ∈ E, Canon q.2) {f : Rational} (hf : Canon f) {minr maxr : Int}
    {ρ : Str → Str} (hρ : ∀ l, IsDensityLabel l → ρ l = l) {e e' : Expr}
    (h : contractExpr o cfg f E minr maxr = .ok e) (h' : contractExpr o cfg f (E.relabel ρ) minr maxr = .ok e')
    {v : OrbSystem Ω R A} (hv : v.Antisymmetric) (hac : v.Anticommute) :
    Lin.eval v.value e' = Lin.eval (v.pull ρ).value e := by
  refine contractExpr_map h8 h8 (v := v.pull ρ) (v' := v) (τ := List.map (Operator.relabel ρ)) hvo ?_ hE hf h h' (fun l => hv (ρ l)) hac hv hac ?_
  · intro q hq p hp
    obtain ⟨p', hp', rfl⟩ := List.mem_map.1 hp
    exact hvo q hq p' hp'
  · intro q hq
    rw [wickSum_relabel hρ, List.map_map]
    rfl

/-- the renaming of both `f` and `t` to `w` -/
def toW (l : Str) : Str := if l = ['f'] ∨ l = ['t'] then ['w'] else l

theorem toW_density {l : Str} (h : IsDensityLabel l) : toW l = l := by
  unfold toW
  rw [if_neg]
  have h2 : 2 ≤ l.length := by
    rcases h with rfl | rfl | ⟨n, rfl⟩
    · decide
    · decide
    · rw [List.length_append]
      exact le_trans (by decide : 2 ≤ "lambda".toList.length) (Nat.le_add_right _ _)
  rintro (rfl | rfl) <;> simp at h2

/-- tensors with different elements for different labels -/
noncomputable def grLab : OrbSystem ℤ ℚ (ExteriorAlgebra ℚ (ℤ × Bool → ℚ)) :=
  ⟨grSys.dom, fun lab l u => (if lab = ['f'] then 2 else if lab = ['w'] then 3 else 1) * grSys.T lab l u, grSys.op⟩

theorem grLab_anti : grLab.Antisymmetric := by
  intro lab
  refine ⟨fun pre a b post u => ?_, fun l pre a b post => ?_⟩
  · show _ * grSys.T _ _ _ = -(_ * grSys.T _ _ _)
    rw [(grSys_anti lab).1]; ring
  · show _ * grSys.T _ _ _ = -(_ * grSys.T _ _ _)
    rw [(grSys_anti lab).2]; ring

/-- a product of two operators called `f` and `t`, both renamed to `w` -/
example : ∃ e e', contract exSR {} ⟨1, 2⟩ [mkOp "f" [(1, 0), (0, 1)], mkOp "t" [(0, 1), (1, 0)]] 0 4 = .ok e ∧
    contract exSR {} ⟨1, 2⟩ [mkOp "w" [(1, 0), (0, 1)], mkOp "w" [(0, 1), (1, 0)]] 0 4 = .ok e' ∧ e.length = 4 ∧ e'.length = 4 ∧
    Lin.eval grLab.value e' = Lin.eval (grLab.pull toW).value e := by
  obtain ⟨e, he, h1⟩ := ok_of_check (x := contract exSR {} ⟨1, 2⟩ [mkOp "f" [(1, 0), (0, 1)], mkOp "t" [(0, 1), (1, 0)]] 0 4) (fun e => decide (e.length = 4)) (by decide +kernel)
  obtain ⟨e', he', h2⟩ := ok_of_check (x := contract exSR {} ⟨1, 2⟩ [mkOp "w" [(1, 0), (0, 1)], mkOp "w" [(0, 1), (1, 0)]] 0 4) (fun e => decide (e.length = 4)) (by decide +kernel)
  refine ⟨e, e', he, he', of_decide_eq_true h1, of_decide_eq_true h2, ?_⟩
  have hv : ∀ p ∈ [mkOp "f" [(1, 0), (0, 1)], mkOp "t" [(0, 1), (1, 0)]], p.Valid exSR.spaces.length := by
    intro p hp
    simp only [List.mem_cons, List.not_mem_nil, or_false] at hp
    rcases hp with rfl | rfl
    · exact mkOp_valid _ _ _ (by decide) (by simp)
    · exact mkOp_valid _ _ _ (by decide) (by simp)
  exact C91_labels_are_names (by decide) hv (by decide) (fun l hl => toW_density hl) he he' grLab_anti grSys_comm

end Wick
end Wicked
