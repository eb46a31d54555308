import Verif.Proofs.LinkGraph
import Verif.Proofs.WickSchemes
import Mathlib.Algebra.BigOperators.Group.Finset.Basic
/-! The coefficients of `contract` as sums over sets (multisets) of elementary contractions -/
namespace Wicked
open CppLt CppEq Rational
namespace Wick

/-- a composite contraction: elementary contractions, what they take is available, and what they leave is in
the window -/
structure IsComp (o : OSI) (m : Int) (ops : OperatorProduct) (minr maxr : Int) (cs : CContr) : Prop where
  el : ∀ e ∈ cs, IsElementary o m ops e
  avail : Avail o.spaces.length ops cs
  window : minr ≤ uncontracted o.spaces.length ops cs ∧ uncontracted o.spaces.length ops cs ≤ maxr

theorem takenCre_perm {cs cs' : CContr} (h : cs.Perm cs') (A s : Nat) : takenCre cs A s = takenCre cs' A s := (h.map _).sum_eq
theorem takenAnn_perm {cs cs' : CContr} (h : cs.Perm cs') (A s : Nat) : takenAnn cs A s = takenAnn cs' A s := (h.map _).sum_eq

theorem IsComp.perm {o : OSI} {m : Int} {ops : OperatorProduct} {minr maxr : Int} {cs cs' : CContr} (h : cs.Perm cs')
    (hc : IsComp o m ops minr maxr cs) : IsComp o m ops minr maxr cs' := by
  have h1 : takenCre cs = takenCre cs' := by funext A s; exact takenCre_perm h A s
  have h2 : takenAnn cs = takenAnn cs' := by funext A s; exact takenAnn_perm h A s
  refine ⟨fun e he => hc.el e (h.mem_iff.2 he), ?_, ?_⟩
  · have := hc.avail; unfold Avail at *; rw [h1, h2] at this; exact this
  · have := hc.window; unfold uncontracted at *; rw [h1, h2] at this; exact this

theorem IsComp.evalList {o : OSI} {m : Int} {ops : OperatorProduct} {minr maxr : Int} {cs : CContr}
    (hc : IsComp o m ops minr maxr cs) : EvalList o ops cs := ⟨fun e he => elementary_evaluable (hc.el e he), hc.avail⟩

theorem IsComp.graph {o : OSI} {m : Int} {ops : OperatorProduct} {minr maxr : Int} {cs : CContr}
    (hc : IsComp o m ops minr maxr cs) {g : Graph} (hA : Admissible o.spaces.length ops cs g) :
    IsComp o m (graphOps ops g) minr maxr (graphContr cs g) := by
  rcases g with ⟨p, c⟩
  refine ⟨graph_elementary hc.el hA, (evalList_graph hc.evalList hA.ops hA.contr).avail, ?_⟩
  rw [uncontracted_graph hA.ops hA.contr]
  exact hc.window

/-- a rearranged list is given by a permutation of the positions -/
theorem perm_positions {α : Type _} (d : α) {l l' : List α} (h : l.Perm l') :
    ∃ c, IsPermOf l.length c ∧ l' = c.map (fun j => l.getD j.toNat d) := by
  have h1 : List.Forall₂ (fun a (j : Int) => a = l.getD j.toNat d) l (iota l.length) := by
    rw [List.forall₂_iff_get]
    refine ⟨by simp [iota], ?_⟩
    intro i h1 h2
    simp [iota, h1]
  obtain ⟨c, hc, h2⟩ := forall₂_perm_left h1 h
  refine ⟨c, hc.symm, ?_⟩
  clear hc h1 h
  induction h2 with
  | nil => rfl
  | cons h _ ih => rw [List.map_cons, ← h, ← ih]

/-- what one contraction contributes to the coefficient of `t` -/
def contrib (o : OSI) (cfg : WickCfg) (t : STerm) (ops : OperatorProduct) (cs : CContr) : ℚ :=
  match processOne o cfg ops cs (Rational.ofInt 1) with
  | .ok r => if eqv r.1 t = true then toRat r.2 else 0
  | .error _ => 0

section
variable {o : OSI} {cfg : WickCfg} (h8 : o.spaces.length ≤ 8) (hcg : cfg.canonGraph = true)
include h8 hcg

theorem contrib_graph {m : Int} {ops : OperatorProduct} {cs : CContr} (hv : ∀ p ∈ ops, p.Valid o.spaces.length) (hev : AllEven ops)
    (hcs : ∀ e ∈ cs, IsElementary o m ops e) {g : Graph} (hA : Admissible o.spaces.length ops cs g) (t : STerm) :
    contrib o cfg t (graphOps ops g) (graphContr cs g) = contrib o cfg t ops cs := by
  unfold contrib
  rw [processOne_graph h8 hcg hv hev hcs hA]

theorem contrib_perm {m : Int} {ops : OperatorProduct} {cs cs' : CContr} (hv : ∀ p ∈ ops, p.Valid o.spaces.length) (hev : AllEven ops)
    (hcs : ∀ e ∈ cs, IsElementary o m ops e) (hp : cs.Perm cs') (t : STerm) :
    contrib o cfg t ops cs' = contrib o cfg t ops cs := by
  obtain ⟨c, hc, e⟩ := perm_positions [] hp
  have hA : Admissible o.spaces.length ops cs (iota ops.length, c) :=
    ⟨List.Perm.refl _, hc, fun _ _ h => absurd h (not_exchanged_iota _)⟩
  have := contrib_graph h8 hcg hv hev hcs hA t
  rw [graphOps_id] at this
  rw [← this]
  congr 1
  rw [e]
  unfold graphContr
  apply List.map_congr_left
  intro j hj
  have hj := (mem_perm hc).1 hj
  have hm : cs.getD j.toNat [] ∈ cs := by
    rw [List.getD_eq_getElem?_getD, List.getElem?_eq_getElem (by omega)]; exact List.getElem_mem _
  have hl : (cs.getD j.toNat []).length = ops.length := evaluable_len (elementary_evaluable (hcs _ hm))
  simp only [iota, List.map_map]
  have := list_eq_map_gmAt (cs.getD j.toNat [])
  rw [hl] at this
  exact this
end

/-- the composite contractions as multisets of elementary contractions -/
def compM (o : OSI) (cfg : WickCfg) (ops : OperatorProduct) (minr maxr : Int) : Finset (Multiset EContr) :=
  match elementaryContractions o cfg ops with
  | .ok el => ((comp o.spaces.length el minr maxr ((GraphMatrix.sumNumOps (ops.map Operator.gm)).toNat + 1) 0 (ops.map Operator.gm)).map
      (fun cv => (↑(pickAt el cv) : Multiset EContr))).toFinset
  | .error _ => ∅

theorem pick_unique {ns : Nat} {ops : OperatorProduct} {el : List EContr} {minr maxr : Int} (hnd : el.Nodup) {cv cv' : List Int}
    (hc : IsComposite ns ops el minr maxr cv) (hc' : IsComposite ns ops el minr maxr cv')
    (hp : (pickAt el cv).Perm (pickAt el cv')) : cv = cv' := by
  have hinj : ∀ a : Int, 0 ≤ a → a < el.length → ∀ b : Int, 0 ≤ b → b < el.length → el.getD a.toNat [] = el.getD b.toNat [] → a = b := by
    intro a ha ha' b hb hb' h1
    rw [List.getD_eq_getElem?_getD, List.getD_eq_getElem?_getD, List.getElem?_eq_getElem (by omega), List.getElem?_eq_getElem (by omega)] at h1
    simp only [Option.getD_some] at h1
    have := (List.Nodup.getElem_inj_iff hnd).1 h1
    omega
  have hperm : cv.Perm cv' := by
    unfold pickAt at hp
    rw [List.perm_iff_count]
    intro c
    by_cases hcr : 0 ≤ c ∧ c < el.length
    · have e1 := count_map_inj (fun c : Int => el.getD c.toNat []) cv c (fun b hb he => hinj b (hc.range b hb).1 (hc.range b hb).2 c hcr.1 hcr.2 he)
      have e2 := count_map_inj (fun c : Int => el.getD c.toNat []) cv' c (fun b hb he => hinj b (hc'.range b hb).1 (hc'.range b hb).2 c hcr.1 hcr.2 he)
      have e4 : @List.count EContr instBEqOfDecidableEq (el.getD c.toNat []) (cv.map (fun c : Int => el.getD c.toNat [])) =
          @List.count EContr instBEqOfDecidableEq (el.getD c.toNat []) (cv'.map (fun c : Int => el.getD c.toNat [])) := hp.countP_eq _
      exact e1.symm.trans (e4.trans e2)
    · rw [List.count_eq_zero.2 (fun h => hcr (hc.range c h)), List.count_eq_zero.2 (fun h => hcr (hc'.range c h))]
  exact hperm.eq_of_pairwise (fun a b _ _ h1 h2 => Int.le_antisymm h1 h2) hc.sorted hc'.sorted

theorem isComp_of_composite {o : OSI} {m : Int} {ops : OperatorProduct} {el : List EContr} {minr maxr : Int}
    (hel : ∀ e, e ∈ el ↔ IsElementary o m ops e) {cv : List Int} (hc : IsComposite o.spaces.length ops el minr maxr cv) :
    IsComp o m ops minr maxr (pickAt el cv) :=
  ⟨fun e he => (hel e).1 (pickAt_mem hc.range e he), hc.avail, hc.window⟩

theorem composite_of_isComp {o : OSI} {m : Int} {ops : OperatorProduct} {el : List EContr} {minr maxr : Int}
    (hel : ∀ e, e ∈ el ↔ IsElementary o m ops e) {cs : CContr} (hc : IsComp o m ops minr maxr cs) :
    ∃ cv, IsComposite o.spaces.length ops el minr maxr cv ∧ (pickAt el cv).Perm cs := by
  have hpat : ∀ b ∈ cs, b ∈ el := fun b hb => (hel _).2 (hc.el b hb)
  let cv : List Int := ((cs.map (fun b => el.idxOf b)).insertionSort (· ≤ ·)).map (fun n : Nat => (n : Int))
  have hcvm : ∀ c ∈ cv, 0 ≤ c ∧ c < el.length := by
    intro c hc
    obtain ⟨n, hn, rfl⟩ := List.mem_map.1 hc
    rw [List.mem_insertionSort] at hn
    obtain ⟨b, hb, rfl⟩ := List.mem_map.1 hn
    have := List.idxOf_lt_length_of_mem (hpat b hb)
    omega
  have hpk : (pickAt el cv).Perm cs := by
    have h1 : (pickAt el cv).Perm ((cs.map (fun b => el.idxOf b)).map (fun n => el.getD n [])) := by
      unfold pickAt
      rw [List.map_map]
      exact (List.perm_insertionSort _ _).map _
    refine h1.trans ?_
    rw [List.map_map]
    apply List.Perm.of_eq
    conv_rhs => rw [← List.map_id cs]
    apply List.map_congr_left
    intro b hb
    have hb := hpat b hb
    simp only [Function.comp_apply, id]
    rw [List.getD_eq_getElem?_getD, List.getElem?_eq_getElem (List.idxOf_lt_length_of_mem hb), List.getElem_idxOf]; rfl
  have hc' := hc.perm hpk.symm
  refine ⟨cv, ⟨?_, hcvm, hc'.avail, hc'.window⟩, hpk⟩
  rw [List.pairwise_map]
  refine (List.pairwise_insertionSort (· ≤ ·) _).imp ?_
  intro a b h; exact_mod_cast h

theorem mem_compM {o : OSI} {cfg : WickCfg} (h8 : o.spaces.length ≤ 8) {ops : OperatorProduct} (hv : ∀ p ∈ ops, p.Valid o.spaces.length)
    (minr maxr : Int) (μ : Multiset EContr) :
    μ ∈ compM o cfg ops minr maxr ↔ IsComp o cfg.maxCumulant ops minr maxr μ.toList := by
  obtain ⟨el, h1, h2, h3⟩ := elementary_spec (cfg := cfg) hv h8
  have hsz := elementary_sizes h8 hv h1
  unfold compM
  rw [h1]
  simp only [List.mem_toFinset, List.mem_map, mem_comp_composite hv h8 hsz]
  constructor
  · rintro ⟨cv, hc, rfl⟩
    refine (isComp_of_composite h3 hc).perm ?_
    rw [← Multiset.coe_eq_coe, Multiset.coe_toList]
  · intro hc
    obtain ⟨cv, a, b⟩ := composite_of_isComp h3 hc
    refine ⟨cv, a, ?_⟩
    rw [Multiset.coe_eq_coe.2 b, Multiset.coe_toList]

/-- the coefficient of `t` in the contraction of a product -/
theorem ucoef_compM {o : OSI} {cfg : WickCfg} (h8 : o.spaces.length ≤ 8) (hcg : cfg.canonGraph = true) {ops : OperatorProduct}
    (hv : ∀ p ∈ ops, p.Valid o.spaces.length) (hev : AllEven ops) {minr maxr : Int} {rs}
    (h : unitTerms o cfg ops minr maxr = .ok rs) (t : STerm) :
    ucoef rs t = ∑ μ ∈ compM o cfg ops minr maxr, contrib o cfg t ops μ.toList := by
  obtain ⟨el, h1, h2, h3⟩ := elementary_spec (cfg := cfg) hv h8
  have hsz := elementary_sizes h8 hv h1
  unfold unitTerms at h
  rw [h1] at h
  simp only [bind, Except.bind] at h
  obtain ⟨hs1, hs2⟩ := composite_spec hv h8 hsz minr maxr
  by_cases hS : Shallow o.spaces.length ops el
  swap
  · rw [hs2 hS] at h; cases h
  obtain ⟨L, hL1, hL2, hL3, hL4⟩ := hs1 hS
  rw [hL1] at h
  simp only at h
  have hfil : L.filter (inWindow el ops minr maxr) = L := by
    rw [List.filter_eq_self]
    intro cv hcv
    have hc := (hL4 cv).1 hcv
    exact (inWindow_iff hv h8 (fun e he => (hsz e he).1) hc.range minr maxr).2 hc.window
  rw [hfil] at h
  have hF := (mapM_ok_iff _ _ _).1 h
  have e1 : ucoef rs t = (L.map (fun cv => contrib o cfg t ops (pickAt el cv))).sum := by
    unfold ucoef
    congr 1
    clear h hfil hL1 hL2 hL3 hL4
    induction hF with
    | nil => rfl
    | @cons cv r L rs a _ ih =>
      rw [List.map_cons, List.map_cons, ih]
      congr 1
      have a' : processOne o cfg ops (pickAt el cv) (Rational.ofInt 1) = .ok r := a
      unfold contrib
      rw [a']
  have e2 : compM o cfg ops minr maxr = (L.map (fun cv => (↑(pickAt el cv) : Multiset EContr))).toFinset := by
    unfold compM
    rw [h1]
    ext μ
    simp only [List.mem_toFinset, List.mem_map, mem_comp_composite hv h8 hsz, hL4]
  have hnd : (L.map (fun cv => (↑(pickAt el cv) : Multiset EContr))).Nodup := by
    refine List.Nodup.map_on ?_ hL3
    intro a ha b hb he
    exact pick_unique h2 ((hL4 a).1 ha) ((hL4 b).1 hb) (Multiset.coe_eq_coe.1 he)
  rw [e1, e2, List.sum_toFinset _ hnd, List.map_map]
  congr 1
  apply List.map_congr_left
  intro cv hcv
  have hc := isComp_of_composite h3 ((hL4 cv).1 hcv)
  refine (contrib_perm h8 hcg hv hev hc.el ?_ t).symm
  show (pickAt el cv).Perm (Multiset.toList (↑(pickAt el cv) : Multiset EContr))
  rw [← Multiset.coe_eq_coe, Multiset.coe_toList]

end Wick
end Wicked
