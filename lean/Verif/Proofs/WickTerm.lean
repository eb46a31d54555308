import Verif.Proofs.Pairing
import Verif.Proofs.WickContract
import Verif.Props.CanonTerm
import Verif.Props.Wick
/-! The terms that `contract` produces -/
namespace Wicked
open CppLt CppEq Rational
namespace Wick

/-! ### sizes -/

theorem map_range_opAt {β : Type _} (ops : OperatorProduct) (F : Operator → β) :
    (List.range ops.length).map (fun A => F (opAt ops A)) = ops.map F := by
  apply List.ext_getElem
  · simp
  · intro i h1 h2
    simp at h1
    simp [opAt, h1]

theorem sum_toNat {α : Type _} (l : List α) (f : α → Int) (h : ∀ a ∈ l, 0 ≤ f a) :
    (((l.map (fun a => (f a).toNat)).sum : Nat) : Int) = (l.map f).sum := by
  induction l with
  | nil => rfl
  | cons a l ih =>
    simp only [List.map_cons, List.sum_cons]
    rw [Nat.cast_add, ih (fun x hx => h x (by simp [hx])), Int.toNat_of_nonneg (h a (by simp))]

theorem length_opSlots {ns : Nat} {p : Operator} (hp : p.Valid ns) (o : Nat) :
    ((opSlots ns o p).length : Int) = ((List.range ns).map (fun s => p.gm.cre s + p.gm.ann s)).sum := by
  unfold opSlots creSlots annSlots
  rw [List.length_append, List.length_reverse, List.length_flatMap, List.length_flatMap, sum_map_add_gen, Nat.cast_add]
  simp only [List.length_map, List.length_range]
  rw [sum_toNat _ _ (fun s _ => (hp s).1), sum_toNat _ _ (fun s _ => (hp s).2.1)]

theorem length_slots {ns : Nat} {ops : OperatorProduct} (hv : ∀ p ∈ ops, p.Valid ns) :
    ((slots ns ops).length : Int) = totalOps ns ops := by
  unfold totalOps
  rw [map_range_opAt ops (fun p => ((List.range ns).map (fun s => p.gm.cre s + p.gm.ann s)).sum)]
  unfold slots
  generalize 0 = o
  induction ops generalizing o with
  | nil => rfl
  | cons p ops ih =>
    rw [slotsFrom, List.length_append, Nat.cast_add, ih (fun q hq => hv q (by simp [hq])), length_opSlots (hv p (by simp))]
    simp

theorem evaluable_good {o : OSI} {n : Nat} {e : EContr} (h : Evaluable o n e) : Good o.spaces.length n e := by
  obtain ⟨s, c, a, k, hs, hL, hc, _⟩ := h
  refine ⟨hL.1, fun A hA t => ?_⟩
  rw [(hL.2 A hA t).1, (hL.2 A hA t).2]
  by_cases ht : t = s
  · rw [if_pos ht, if_pos ht]; exact ⟨(hc A hA).1, (hc A hA).2, fun h => by omega⟩
  · rw [if_neg ht, if_neg ht]; exact ⟨by omega, by omega, fun _ => ⟨rfl, rfl⟩⟩

theorem length_block {o : OSI} {n : Nat} {e : EContr} (h8 : o.spaces.length ≤ 8) (h : Evaluable o n e) (pre : List EContr) :
    (((blkCre n (espace o.spaces.length e) pre e) ++ (blkAnn n (espace o.spaces.length e) pre e)).length : Int) = e.numOps := by
  have hnn := evaluable_nonneg h
  obtain ⟨s, c, a, k, hs, hLg, hcn, hc, ha, hk, hk1⟩ := h
  obtain ⟨_, hsp⟩ := legs_spaces hs hLg hcn (by omega)
  rw [hsp, List.length_append, Nat.cast_add, length_blkCre _ _ _ _ (fun v hv => (hnn v hv s).1),
    length_blkAnn _ _ _ _ (fun v hv => (hnn v hv s).2), legs_numOps (by omega) hLg]
  congr 2 <;> (apply List.map_congr_left; intro v hv)
  · rw [(hLg.2 v (List.mem_range.1 hv) s).1, if_pos rfl]
  · rw [(hLg.2 v (List.mem_range.1 hv) s).2, if_pos rfl]

theorem length_marked {o : OSI} {n : Nat} (h8 : o.spaces.length ≤ 8) : ∀ (cs pre : List EContr), (∀ e ∈ cs, Evaluable o n e) →
    ((((blocksFrom o.spaces.length n pre cs).flatMap Block.flat).length : Nat) : Int) = (cs.map EContr.numOps).sum := by
  intro cs
  induction cs with
  | nil => intro pre _; rfl
  | cons e cs ih =>
    intro pre h
    rw [blocksFrom, List.flatMap_cons, List.length_append, Nat.cast_add, ih _ (fun x hx => h x (by simp [hx])), List.map_cons, List.sum_cons]
    congr 1
    exact length_block h8 (h e (by simp)) pre

/-- number of operators left over -/
theorem length_restOps {o : OSI} {ops : OperatorProduct} {cs : List EContr} (h8 : o.spaces.length ≤ 8)
    (hv : ∀ p ∈ ops, p.Valid o.spaces.length) (hE : EvalList o ops cs) :
    ((restOps o ops cs).length : Int) = uncontracted o.spaces.length ops cs := by
  have h1 := (evalCore_ok h8 hE).1.length_eq
  rw [List.length_append] at h1
  have h2 := length_slots hv
  have h3 : ((marked o ops cs).length : Int) = _ := length_marked (n := ops.length) h8 cs [] hE.ev
  rw [uncontracted_eq hv h8 cs (fun e he => evaluable_good (hE.ev e he)), sumNumOps_totalOps hv h8]
  omega

theorem valid_graphOps {ns : Nat} {ops : OperatorProduct} (hv : ∀ p ∈ ops, p.Valid ns) {p c : List Int} (hp : IsPermOf ops.length p) :
    ∀ q ∈ graphOps ops (p, c), q.Valid ns := by
  intro q hq
  unfold graphOps at hq
  obtain ⟨i, hi, rfl⟩ := List.mem_map.1 hq
  have := (mem_perm hp).1 hi
  refine hv _ ?_
  unfold opAt
  have hl : i.toNat < ops.length := by omega
  simp [List.getD_eq_getElem?_getD, hl]

theorem perm_graphOps {ops : OperatorProduct} {p c : List Int} (hp : IsPermOf ops.length p) : (graphOps ops (p, c)).Perm ops := by
  unfold graphOps
  simp only
  rw [map_pAt hp (fun j => opAt ops j)]
  refine (perm_pAt hp (fun j => opAt ops j)).trans (List.Perm.of_eq ?_)
  have := map_range_opAt ops id
  simpa using this

theorem totalOps_eq (ns : Nat) (ops : OperatorProduct) :
    totalOps ns ops = (ops.map (fun p => ((List.range ns).map (fun s => p.gm.cre s + p.gm.ann s)).sum)).sum := by
  unfold totalOps
  rw [map_range_opAt ops (fun p => ((List.range ns).map (fun s => p.gm.cre s + p.gm.ann s)).sum)]

theorem uncontracted_graph {ns : Nat} {ops : OperatorProduct} {cs : CContr} {p c : List Int} (hp : IsPermOf ops.length p)
    (hc : IsPermOf cs.length c) : uncontracted ns (graphOps ops (p, c)) (graphContr cs (p, c)) = uncontracted ns ops cs := by
  unfold uncontracted
  rw [length_graphOps hp]
  have : (List.range ops.length).map (fun A => ((List.range ns).map (fun s =>
      ((opAt (graphOps ops (p, c)) A).gm.cre s - takenCre (graphContr cs (p, c)) A s) +
      ((opAt (graphOps ops (p, c)) A).gm.ann s - takenAnn (graphContr cs (p, c)) A s))).sum) =
      (List.range ops.length).map (fun A => ((List.range ns).map (fun s =>
      ((opAt ops (pAt p A)).gm.cre s - takenCre cs (pAt p A) s) +
      ((opAt ops (pAt p A)).gm.ann s - takenAnn cs (pAt p A) s))).sum) := by
    apply List.map_congr_left
    intro A hA
    congr 1
    apply List.map_congr_left
    intro s _
    rw [opAt_graphOps hp (List.mem_range.1 hA), takenCre_graph hp hc (List.mem_range.1 hA), takenAnn_graph hp hc (List.mem_range.1 hA)]
  rw [this]
  exact (perm_pAt hp (fun A => ((List.range ns).map (fun s =>
      ((opAt ops A).gm.cre s - takenCre cs A s) + ((opAt ops A).gm.ann s - takenAnn cs A s))).sum)).sum_eq

/-! ### the identity graph -/

theorem graphOps_id (ops : OperatorProduct) (c : List Int) : graphOps ops (iota ops.length, c) = ops := by
  unfold graphOps iota
  simp only [List.map_map]
  exact (map_range_opAt ops id).trans (by simp)

theorem map_range_getD {α : Type _} (l : List α) (d : α) {n : Nat} (h : l.length = n) : (List.range n).map (fun i => l.getD i d) = l := by
  subst h
  apply List.ext_getElem
  · simp
  · intro i h1 h2
    simp [List.getD_eq_getElem?_getD, h2]

theorem graphContr_id {n : Nat} {cs : CContr} (h : ∀ e ∈ cs, e.length = n) : graphContr cs (iota n, iota cs.length) = cs := by
  unfold graphContr iota
  simp only [List.map_map]
  have h1 : ((fun i : Int => (List.range n).map ((fun j : Int => gmAt (cs.getD i.toNat []) j.toNat) ∘ fun k : Nat => (k : Int))) ∘ fun k : Nat => (k : Int)) =
      fun i : Nat => (List.range n).map (fun j => (cs.getD i []).getD j GraphMatrix.zero) := rfl
  rw [h1]
  apply List.ext_getElem
  · simp
  · intro i h1 h2
    simp only [List.getElem_map, List.getElem_range]
    have : cs.getD i [] = cs[i] := by simp [List.getD_eq_getElem?_getD, h2]
    rw [this]
    exact map_range_getD _ _ (h _ (List.getElem_mem h2))

theorem exchangeSign_sorted (n : Int → Int) (l : List Int) (h : l.Pairwise (· < ·)) : exchangeSign n l = 1 := by
  induction l with
  | nil => rfl
  | cons a l ih =>
    rw [List.pairwise_cons] at h
    rw [exchangeSign, ih h.2, mul_one]
    apply List.prod_eq_one
    intro x hx
    obtain ⟨b, hb, rfl⟩ := List.mem_map.1 hx
    rw [if_neg (by have := h.1 b hb; omega)]

theorem iota_sorted (n : Nat) : (iota n).Pairwise (· < ·) := by
  unfold iota
  rw [List.pairwise_map]
  exact List.pairwise_lt_range.imp (fun h => by exact_mod_cast h)

theorem evaluable_len {o : OSI} {n : Nat} {e : EContr} (h : Evaluable o n e) : e.length = n := by
  obtain ⟨s, c, a, k, hs, hL, _⟩ := h
  exact hL.1

/-- the graph that is evaluated -/
theorem bestGraph_ok {o : OSI} {cfg : WickCfg} {ops : OperatorProduct} {cs : CContr} (h8 : o.spaces.length ≤ 8)
    (hv : ∀ p ∈ ops, p.Valid o.spaces.length) (hE : EvalList o ops cs) :
    ∃ g s, bestGraph o cfg ops cs = .ok (graphOps ops g, graphContr cs g, s) ∧ Admissible o.spaces.length ops cs g ∧
      toRat s = ((exchangeSign (fun i => (opAt ops i.toNat).numOps) g.1 : Int) : ℚ) := by
  unfold bestGraph
  split
  · exact canonicalizeGraph_ok h8 hE.ev (opAt_numOps_nonneg hv)
  · refine ⟨(iota ops.length, iota cs.length), Rational.ofInt 1, ?_, admissible_id _ _ _, ?_⟩
    · rw [graphOps_id, graphContr_id (fun e he => evaluable_len (hE.ev e he))]; rfl
    · rw [exchangeSign_sorted _ _ (iota_sorted _), toRat_ofInt]

theorem processOne_bind (o : OSI) (cfg : WickCfg) (ops : OperatorProduct) (cs : CContr) (f : Rational) :
    processOne o cfg ops cs f = (do
      let b ← bestGraph o cfg ops cs
      let r ← evaluate o b.1 b.2.1 (Rational.mul f b.2.2)
      let c ← r.1.canonicalize o
      return (c.1, Rational.mul c.2 r.2)) := by
  unfold processOne bestGraph
  split <;> rfl

/-- one contraction -/
theorem processOne_eq {o : OSI} {cfg : WickCfg} {ops : OperatorProduct} {cs : CContr} (h8 : o.spaces.length ≤ 8)
    (hv : ∀ p ∈ ops, p.Valid o.spaces.length) (hE : EvalList o ops cs) :
    ∃ g s, Admissible o.spaces.length ops cs g ∧
      toRat s = ((exchangeSign (fun i => (opAt ops i.toNat).numOps) g.1 : Int) : ℚ) ∧
      EvalList o (graphOps ops g) (graphContr cs g) ∧
      IsListing o (graphOps ops g) (blocksOf o (graphOps ops g) (graphContr cs g)) (restOps o (graphOps ops g) (graphContr cs g)) ∧
      ∀ f, processOne o cfg ops cs f = (do
        let c ← (listTerm o (graphOps ops g) (blocksOf o (graphOps ops g) (graphContr cs g)) (restOps o (graphOps ops g) (graphContr cs g))).canonicalize o
        return (c.1, Rational.mul c.2 (Rational.mul (Rational.mul
          (Rational.ofInt (listSign o (graphOps ops g) (blocksOf o (graphOps ops g) (graphContr cs g)) (restOps o (graphOps ops g) (graphContr cs g))))
          (opFactors o.spaces.length (graphOps ops g) (Rational.mul f s))) (combFactor o.spaces.length (graphOps ops g) (graphContr cs g))))) := by
  obtain ⟨g, s, hb, hA, hs⟩ := bestGraph_ok (cfg := cfg) h8 hv hE
  have hE' : EvalList o (graphOps ops g) (graphContr cs g) := evalList_graph hE hA.ops hA.contr
  obtain ⟨hl, he⟩ := evalCore_listing h8 hE'
  refine ⟨g, s, hA, hs, hE', hl, fun f => ?_⟩
  rw [processOne_bind, hb]
  simp only [bind, Except.bind, evaluate_eq, he, pure, Except.pure]

/-! ### the indices of a listing -/

theorem allIdx_perm (t : STerm) : t.allIdx.Perm (t.lowAnn ++ t.uppCre) := by
  unfold STerm.allIdx STerm.lowAnn STerm.uppCre
  have h1 : (t.ops.map SQOp.index).Perm ((t.ops.filter (fun a => decide (a.type = .annihilation))).map SQOp.index ++
      (t.ops.filter (fun a => decide (a.type = .creation))).map SQOp.index) := by
    rw [← List.map_append]
    refine List.Perm.map _ ?_
    have : (fun a : SQOp => decide (a.type = .creation)) = fun a => !decide (a.type = .annihilation) := by
      funext a; cases a.type <;> rfl
    rw [this]
    exact (List.filter_append_perm _ _).symm
  have h2 := (List.flatMap_append_perm t.tensors Tensor.lower Tensor.upper).symm
  refine (h1.append h2).trans ?_
  generalize List.map SQOp.index _ = a
  generalize List.map SQOp.index _ = b
  generalize t.tensors.flatMap Tensor.lower = c
  generalize t.tensors.flatMap Tensor.upper = d
  rw [List.perm_iff_count]
  intro i
  simp only [List.count_append]
  omega

theorem layTensors_symm (ns : Nat) (I : Slot → Index) : ∀ (ops : OperatorProduct) (k : Nat), ∀ y ∈ layTensors ns I k ops, y.symm = .antisymmetric := by
  intro ops
  induction ops with
  | nil => intro k y hy; cases hy
  | cons p ops ih =>
    intro k y hy
    rw [layTensors] at hy
    rcases List.mem_cons.1 hy with rfl | hy
    · rfl
    · exact ih _ y hy

section
variable {o : OSI} {ops : OperatorProduct} {bs : List Block} {R : List Slot} (h : IsListing o ops bs R)
include h

theorem listTerm_idx {i : Index} (hi : i ∈ (listTerm o ops bs R).allIdx) :
    i ∈ (bs.flatMap (bSurv o) ++ R).map (slotIdx (slots o.spaces.length ops)) := by
  rw [(allIdx_perm _).mem_iff, List.mem_append, (listTerm_low h).mem_iff, (listTerm_upp h).mem_iff, or_self] at hi
  exact hi

/-- each index occurs once below and once above -/
theorem listTerm_pair : (listTerm o ops bs R).IndicesPair := by
  intro i hi
  have hi := listTerm_idx h hi
  rw [(listTerm_low h).count_eq, (listTerm_upp h).count_eq, List.count_eq_one_of_mem (surv_nodup h) hi]
  exact ⟨rfl, rfl⟩

theorem listTerm_registered : ∀ i ∈ (listTerm o ops bs R).allIdx, i.Registered o := by
  intro i hi
  obtain ⟨x, hx, rfl⟩ := List.mem_map.1 (listTerm_idx h hi)
  have hx := h.perm.mem_iff.1 ((surv_sub h).subset hx)
  have := slotIdx_space (nodup_slots _ _) hx
  have := slots_space_lt x hx
  unfold Index.Registered
  omega

/-- number of indices of one space -/
theorem listTerm_occ (s : Nat) : (listTerm o ops bs R).occurrences s ≤
    2 * ((slots o.spaces.length ops).filter (fun x => decide (x.space = s))).length := by
  unfold STerm.occurrences
  rw [((allIdx_perm _).filter _).length_eq, List.filter_append, List.length_append,
    ((listTerm_low h).filter _).length_eq, ((listTerm_upp h).filter _).length_eq]
  have : ((bs.flatMap (bSurv o) ++ R).map (slotIdx (slots o.spaces.length ops))).filter (fun i => decide (i.space = (s : Int))) =
      ((bs.flatMap (bSurv o) ++ R).filter (fun x => decide (x.space = s))).map (slotIdx (slots o.spaces.length ops)) := by
    rw [List.filter_map]
    congr 1
    apply List.filter_congr
    intro x hx
    have := slotIdx_space (nodup_slots _ _) (h.perm.mem_iff.1 ((surv_sub h).subset hx))
    simp only [Function.comp_apply]
    rw [this]
    simp
  rw [this, List.length_map]
  have h1 := ((surv_sub h).filter (fun x => decide (x.space = s))).length_le
  have h2 := (h.perm.filter (fun x => decide (x.space = s))).length_eq
  omega

theorem listTerm_symm : ∀ x ∈ (listTerm o ops bs R).tensors, x.symm = .antisymmetric := by
  intro x hx
  unfold listTerm STerm.reindex at hx
  obtain ⟨y, hy, rfl⟩ := List.mem_map.1 hx
  show y.symm = _
  rcases List.mem_append.1 hy with hy | hy
  · exact layTensors_symm _ _ _ _ y hy
  · obtain ⟨b, _, hy⟩ := List.mem_flatMap.1 hy
    unfold bTensors at hy
    split at hy
    · rw [List.mem_singleton] at hy
      subst hy
      split
      · split <;> rfl
      · rfl
    · cases hy

theorem listTerm_covered : (listTerm o ops bs R).Covered := by
  intro a ha
  unfold listTerm STerm.reindex at ha ⊢
  simp only [List.map_map, List.mem_map] at ha
  obtain ⟨x, hx, rfl⟩ := ha
  have hxs := mem_slots_rest h hx
  have key : ∃ y ∈ layTensors o.spaces.length (slotIdx (slots o.spaces.length ops)) 0 ops,
      slotIdx (slots o.spaces.length ops) x ∈ y.lower ++ y.upper := by
    by_cases hc : x.cre = true
    · have : slotIdx (slots o.spaces.length ops) x ∈ (layTensors o.spaces.length (slotIdx (slots o.spaces.length ops)) 0 ops).flatMap Tensor.lower := by
        rw [layTensors_lower]
        exact List.mem_map_of_mem (List.mem_filter.2 ⟨hxs, hc⟩)
      obtain ⟨y, hy, h1⟩ := List.mem_flatMap.1 this
      exact ⟨y, hy, List.mem_append_left _ h1⟩
    · have : slotIdx (slots o.spaces.length ops) x ∈ (layTensors o.spaces.length (slotIdx (slots o.spaces.length ops)) 0 ops).flatMap Tensor.upper := by
        rw [(layTensors_upper _ _ _ _).mem_iff]
        exact List.mem_map_of_mem (List.mem_filter.2 ⟨hxs, by simpa using hc⟩)
      obtain ⟨y, hy, h1⟩ := List.mem_flatMap.1 this
      exact ⟨y, hy, List.mem_append_right _ h1⟩
  obtain ⟨y, hy, h1⟩ := key
  refine ⟨Tensor.reindex _ y, List.mem_map_of_mem (List.mem_append_left _ hy), ?_⟩
  show applyMap _ _ ∈ List.map _ _ ++ List.map _ _
  rw [← List.map_append]
  exact List.mem_map_of_mem h1

end

/-- number of operators of one space -/
theorem length_slots_space {ns : Nat} {ops : OperatorProduct} (hv : ∀ p ∈ ops, p.Valid ns) {s : Nat} (hs : s < ns) :
    (((slots ns ops).filter (fun x => decide (x.space = s))).length : Int) = (ops.map (fun p => p.gm.cre s + p.gm.ann s)).sum := by
  have one : ∀ (f : Nat → Int) (mk : Nat → Nat → Slot), (∀ t k, (mk t k).space = t) → 0 ≤ f s →
      ((((List.range ns).flatMap (fun t => (List.range (f t).toNat).map (mk t))).filter (fun x => decide (x.space = s))).length : Int) = f s := by
    intro f mk hmk h0
    rw [List.filter_flatMap, List.length_flatMap]
    have : (List.range ns).map (fun t => (((List.range (f t).toNat).map (mk t)).filter (fun x => decide (x.space = s))).length) =
        (List.range ns).map (fun t => if t = s then (f t).toNat else 0) := by
      apply List.map_congr_left
      intro t _
      split
      · rename_i h
        rw [List.filter_eq_self.2]
        · simp
        · intro x hx
          obtain ⟨k, _, rfl⟩ := List.mem_map.1 hx
          simp [hmk, h]
      · rename_i h
        rw [List.filter_eq_nil_iff.2]
        · rfl
        · intro x hx
          obtain ⟨k, _, rfl⟩ := List.mem_map.1 hx
          simp [hmk, h]
    rw [this]
    have h2 : (((List.range ns).map (fun t => if t = s then (f t).toNat else 0)).sum : Int) =
        ((List.range ns).map (fun t => if t = s then f t else 0)).sum := by
      rw [Nat.cast_list_sum, List.map_map]
      congr 1
      apply List.map_congr_left
      intro t _
      simp only [Function.comp_apply]
      split
      · rename_i h; subst h; exact Int.toNat_of_nonneg h0
      · rfl
    have h3 := sum_range_ite ns s f
    rw [if_pos hs] at h3
    rw [← h3, ← h2]
  unfold slots
  generalize 0 = o
  induction ops generalizing o with
  | nil => rfl
  | cons p ops ih =>
    rw [slotsFrom, List.filter_append, List.length_append, Nat.cast_add, ih (fun q hq => hv q (by simp [hq]))]
    simp only [List.map_cons, List.sum_cons]
    congr 1
    have hp := hv p (by simp)
    unfold opSlots
    rw [List.filter_append, List.length_append, Nat.cast_add, List.filter_reverse, List.length_reverse]
    rw [creSlots, one (fun t => p.gm.cre t) (fun t k => ⟨o, t, true, k⟩) (fun _ _ => rfl) (hp s).1,
      annSlots, one (fun t => p.gm.ann t) (fun t k => ⟨o, t, false, k⟩) (fun _ _ => rfl) (hp s).2.1]

theorem listTerm_occ32 {o : OSI} {ops : OperatorProduct} {bs : List Block} {R : List Slot}
    (hv : ∀ p ∈ ops, p.Valid o.spaces.length) (h : IsListing o ops bs R)
    (h32 : ∀ s < o.spaces.length, (ops.map (fun p => p.gm.cre s + p.gm.ann s)).sum ≤ 32) :
    ∀ s, (listTerm o ops bs R).occurrences s ≤ 64 := by
  intro s
  by_cases hs : 0 ≤ s ∧ s.toNat < o.spaces.length
  · have h1 := listTerm_occ h s.toNat
    have h2 := length_slots_space hv hs.2
    have h3 := h32 _ hs.2
    rw [Int.toNat_of_nonneg hs.1] at h1
    omega
  · have : (listTerm o ops bs R).occurrences s = 0 := by
      unfold STerm.occurrences
      rw [List.filter_eq_nil_iff.2]
      · rfl
      · intro i hi
        have := listTerm_registered h i hi
        unfold Index.Registered at this
        simp only [decide_eq_true_eq]
        rintro rfl
        exact hs this
    omega

/-- the positions given to the second-quantized operators are a permutation -/
theorem evalOrder_ok {o : OSI} {ops : OperatorProduct} {cs : List EContr} (h8 : o.spaces.length ≤ 8) (hE : EvalList o ops cs) :
    ∃ tensors sqops opMap st, tensorsSqops o.spaces.length ops = .ok (tensors, sqops, opMap) ∧
      cs.foldlM (evalStep o sqops opMap)
        { off := List.replicate ops.length GraphMatrix.zero, pos := 0, ncontr := 0, usign := 1, map := [],
          order := List.replicate sqops.length (-1), tensors := tensors } = .ok st ∧
      IsPermOf sqops.length (orderRest o.spaces.length sqops (st.order, st.pos)).1 := by
  have hL := nodup_slots o.spaces.length ops
  obtain ⟨hM1, hM2⟩ := marked_ok hE
  have hP := perm_rest hL slots_space_lt hM1 hM2
  obtain ⟨om, e0, hom⟩ := tensorsSqops_ok o.spaces.length ops
  have hinit : EInv o ops (layTensors o.spaces.length (slotIdx (slots o.spaces.length ops)) 0 ops) []
      (blocksFrom o.spaces.length ops.length [] [])
      { off := List.replicate ops.length GraphMatrix.zero, pos := 0, ncontr := 0, usign := 1, map := [],
        order := List.replicate ((slots o.spaces.length ops).map (fun x => (⟨x.type, slotIdx (slots o.spaces.length ops) x⟩ : SQOp))).length (-1),
        tensors := layTensors o.spaces.length (slotIdx (slots o.spaces.length ops)) 0 ops } := by
    refine ⟨by simp, ?_, ⟨by simp, ?_⟩, by simp [blocksFrom], by simp [blocksFrom], by simp [blocksFrom], by simp [blocksFrom], by simp [blocksFrom]⟩
    · intro v hv s hs
      have : gmAt (List.replicate ops.length GraphMatrix.zero) v = GraphMatrix.zero := by
        unfold gmAt; rw [List.getD_eq_getElem?_getD]; simp [List.getElem?_replicate, hv]
      rw [this]
      simp [takenCre, takenAnn, GraphMatrix.cre_zero, GraphMatrix.ann_zero]
    · intro x hx
      have := List.idxOf_lt_length_of_mem hx
      simp [blocksFrom, List.getD_eq_getElem?_getD, List.getElem?_replicate, this]
  obtain ⟨st, e1, i1⟩ := evalSteps_ok h8 hom cs [] _ hinit (by simpa using hE)
  rw [List.nil_append] at i1
  obtain ⟨order, e2, i2⟩ := orderRest_ok (ns := o.spaces.length) hL (slotIdx (slots o.spaces.length ops)) (fun x hx => slotIdx_space hL hx) _ _ i1.order
  have e3 := order_eq hL i2 hP
  refine ⟨_, _, _, st, e0, e1, ?_⟩
  rw [i1.pos, e2, e3, List.length_map]
  have hPn : (marked o ops cs ++ restOps o ops cs).Nodup := hP.nodup_iff.2 hL
  refine isPermOf_of (by simp) ?_ ?_
  · refine hL.map_on ?_
    intro x hx y hy hxy
    unfold posZ at hxy
    have hx' := hP.mem_iff.2 hx
    exact (List.idxOf_inj hx').1 (by exact_mod_cast hxy)
  · intro z hz
    obtain ⟨x, hx, rfl⟩ := List.mem_map.1 hz
    have := List.idxOf_lt_length_of_mem (hP.mem_iff.2 hx)
    rw [hP.length_eq] at this
    exact ⟨Int.natCast_nonneg _, Int.ofNat_lt.2 this⟩

/-! ### canonicalization keeps the pairing -/

theorem renamed_low {ρ : Index → Index} {t t' : STerm} (h : t.Renamed ρ t') :
    t'.lowAnn.Perm (t.lowAnn.map ρ) ∧ t'.uppCre.Perm (t.uppCre.map ρ) := by
  obtain ⟨_, h2, l, h3, h4⟩ := h
  have hops : ∀ ty : SQType, ((t'.ops.filter (fun a => decide (a.type = ty))).map SQOp.index).Perm
      (((t.ops.filter (fun a => decide (a.type = ty))).map SQOp.index).map ρ) := by
    intro ty
    refine ((h2.filter _).map _).trans (List.Perm.of_eq ?_)
    unfold STerm.subst
    rw [List.filter_map, List.map_map, List.map_map]
    rfl
  have ht : ∀ {l l' : List Tensor}, List.Forall₂ (fun x y : Tensor => y.label = x.label ∧ y.symm = x.symm ∧ y.conj = x.conj ∧
      y.lower.Perm x.lower ∧ y.upper.Perm x.upper) l l' →
      (l'.flatMap Tensor.lower).Perm (l.flatMap Tensor.lower) ∧ (l'.flatMap Tensor.upper).Perm (l.flatMap Tensor.upper) := by
    intro l l' hh
    induction hh with
    | nil => exact ⟨List.Perm.refl _, List.Perm.refl _⟩
    | cons h1 _ ih => exact ⟨h1.2.2.2.1.append ih.1, h1.2.2.2.2.append ih.2⟩
  constructor
  · unfold STerm.lowAnn
    rw [List.map_append]
    refine List.Perm.append ((ht h4).1.trans ((h3.flatMap_right _).trans (List.Perm.of_eq ?_))) (hops .annihilation)
    unfold STerm.subst
    rw [List.flatMap_map, List.map_flatMap]
  · unfold STerm.uppCre
    rw [List.map_append]
    refine List.Perm.append ((ht h4).2.trans ((h3.flatMap_right _).trans (List.Perm.of_eq ?_))) (hops .creation)
    unfold STerm.subst
    rw [List.flatMap_map, List.map_flatMap]

theorem covered_idx {t : STerm} (hc : t.Covered) {i : Index} (hi : i ∈ t.allIdx) : ∃ x ∈ t.tensors, i ∈ x.lower ++ x.upper := by
  unfold STerm.allIdx at hi
  rcases List.mem_append.1 hi with hi | hi
  · obtain ⟨a, ha, rfl⟩ := List.mem_map.1 hi
    exact hc a ha
  · exact List.mem_flatMap.1 hi

theorem count_map_inj {α β : Type _} [DecidableEq α] [DecidableEq β] (f : α → β) (l : List α) (a : α) (h : ∀ b ∈ l, f b = f a → b = a) :
    (l.map f).count (f a) = l.count a := by
  induction l with
  | nil => rfl
  | cons b l ih =>
    rw [List.map_cons, List.count_cons, List.count_cons, ih (fun c hc => h c (by simp [hc]))]
    congr 1
    by_cases hb : b = a
    · subst hb; simp
    · have : f b ≠ f a := fun e => hb (h b (by simp) e)
      simp [hb, this]

/-- canonicalization of a term keeps the pairing of its indices and the number of its operators -/
theorem canonicalize_pair {o : OSI} {t t' : STerm} {f : Rational} (hc : t.Covered) (hp : t.IndicesPair)
    (h : t.canonicalize o = .ok (t', f)) : t'.IndicesPair ∧ t'.ops.length = t.ops.length := by
  obtain ⟨ρ, tensors, ts, hs⟩ := canonicalize_shape h
  have hR := canonicalize_renamed hs
  constructor
  · intro j hj
    obtain ⟨i, hi, rfl⟩ := (renamed_mem hR j).1 hj
    have hinj : ∀ k ∈ t.allIdx, ρ k = ρ i → k = i := by
      intro k hk he
      obtain ⟨x, hx, h1⟩ := covered_idx hc hk
      obtain ⟨y, hy, h2⟩ := covered_idx hc hi
      exact hs.inj x hx k h1 y hy i h2 he
    obtain ⟨h1, h2⟩ := renamed_low hR
    have hmem := fun k => (allIdx_perm t).mem_iff (a := k)
    rw [h1.count_eq, h2.count_eq, count_map_inj _ _ _ (fun k hk => hinj k ((hmem k).2 (List.mem_append_left _ hk))),
      count_map_inj _ _ _ (fun k hk => hinj k ((hmem k).2 (List.mem_append_right _ hk)))]
    exact hp i hi
  · rw [hR.2.1.length_eq]; simp [STerm.subst]

end Wick
end Wicked
