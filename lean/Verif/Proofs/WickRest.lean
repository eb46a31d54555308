import Verif.Proofs.WickEval
/-! `evaluate_contraction`: the final order of the second-quantized operators, and the result -/
namespace Wicked
open CppLt CppEq
namespace Wick

theorem blocksFrom_append (ns n : Nat) : ∀ (cs : List EContr) (pre : List EContr) (e : EContr),
    blocksFrom ns n pre (cs ++ [e]) = blocksFrom ns n pre cs ++ [⟨espace ns e, blkCre n (espace ns e) (pre ++ cs) e,
        blkAnn n (espace ns e) (pre ++ cs) e⟩] := by
  intro cs
  induction cs with
  | nil => intro pre e; simp [blocksFrom]
  | cons e' cs ih => intro pre e; simp [blocksFrom, ih]

/-- the contractions take at most what there is -/
def Avail (ns : Nat) (ops : OperatorProduct) (cs : List EContr) : Prop :=
  ∀ v < ops.length, ∀ s < ns, takenCre cs v s ≤ (opAt ops v).gm.cre s ∧ takenAnn cs v s ≤ (opAt ops v).gm.ann s

/-- an evaluable list of contractions -/
structure EvalList (o : OSI) (ops : OperatorProduct) (cs : List EContr) : Prop where
  ev : ∀ e ∈ cs, Evaluable o ops.length e
  avail : Avail o.spaces.length ops cs

theorem evalSteps_ok {o : OSI} {ops : OperatorProduct} {T0 : List Tensor} {om : OpMap} (h8 : o.spaces.length ≤ 8)
    (hom : MapsTo (slots o.spaces.length ops) om) : ∀ (cs pre : List EContr) (st : EvalSt),
    EInv o ops T0 pre (blocksFrom o.spaces.length ops.length [] pre) st → EvalList o ops (pre ++ cs) →
    ∃ st', cs.foldlM (evalStep o ((slots o.spaces.length ops).map (fun x => ⟨x.type, slotIdx (slots o.spaces.length ops) x⟩)) om) st = .ok st' ∧
      EInv o ops T0 (pre ++ cs) (blocksFrom o.spaces.length ops.length [] (pre ++ cs)) st' := by
  intro cs
  induction cs with
  | nil => intro pre st h _; exact ⟨st, rfl, by simpa using h⟩
  | cons e cs ih =>
    intro pre st h hE
    have hnn : NonNeg ops.length cs := fun e' h' => evaluable_nonneg (hE.ev e' (by simp [h']))
    obtain ⟨st1, e1, i1⟩ := evalStep_ok (cs := cs) h8 hom h rfl (fun e' h' => hE.ev e' (by simp [h'])) (hE.ev e (by simp)) (by
      intro v hv s hs
      have := hE.avail v hv s hs
      rw [show pre ++ e :: cs = (pre ++ [e]) ++ cs by simp, takenCre_append, takenAnn_append] at this
      have h1 := takenCre_nonneg hnn hv s
      have h2 := takenAnn_nonneg hnn hv s
      omega)
    have hb := blocksFrom_append o.spaces.length ops.length pre [] e
    rw [List.nil_append] at hb
    rw [← hb] at i1
    obtain ⟨st', e2, i2⟩ := ih (pre ++ [e]) st1 i1 (by simpa using hE)
    refine ⟨st', ?_, by simpa using i2⟩
    rw [List.foldlM_cons, e1]
    exact e2

/-- uncontracted operators of one class, in the order of the product -/
def restOf (L M : List Slot) (p : Bool × Nat) : List Slot :=
  L.filter (fun x => decide (x ∉ M ∧ x.cre = p.1 ∧ x.space = p.2))

/-- the classes in the final order -/
def classes (ns : Nat) : List (Bool × Nat) := [true, false].flatMap (fun c => (List.range ns).map (fun s => (c, s)))

/-- uncontracted operators in the final order: creation operators first, by space -/
def rest (ns : Nat) (L M : List Slot) : List Slot := (classes ns).flatMap (restOf L M)

theorem nodup_classes (ns : Nat) : (classes ns).Nodup := by
  unfold classes
  simp only [List.flatMap_cons, List.flatMap_nil, List.append_nil]
  refine List.nodup_append.2 ⟨?_, ?_, ?_⟩
  · exact List.nodup_range.map (fun a b h => by simpa using h)
  · exact List.nodup_range.map (fun a b h => by simpa using h)
  · simp

theorem mem_classes {ns : Nat} {p : Bool × Nat} : p ∈ classes ns ↔ p.2 < ns := by
  rcases p with ⟨b, s⟩
  cases b <;> simp [classes]

theorem restPass_ok {L : List Slot} (hn : L.Nodup) (I : Slot → Index) (hI : ∀ x ∈ L, (I x).space = (x.space : Int))
    (c : Bool) (s : Nat) (M : List Slot) (order : List Int) (h : OInv L M order) :
    ∀ j ≤ L.length, ∃ order', (List.range j).foldl (init := (order, (M.length : Int))) (fun st i =>
        match (L.map (fun x => (⟨x.type, I x⟩ : SQOp)))[i]? with
        | some a =>
          if st.1.getD i 0 = -1 ∧ a.index.space = (s : Int) ∧ a.type = (if c then SQType.creation else SQType.annihilation) then
            (st.1.set i st.2, st.2 + 1)
          else st
        | none => st) = (order', ((M ++ restOf (L.take j) M (c, s)).length : Int)) ∧ OInv L (M ++ restOf (L.take j) M (c, s)) order' := by
  intro j
  induction j with
  | zero => intro _; exact ⟨order, by simp [restOf], by simpa [restOf] using h⟩
  | succ j ih =>
    intro hj
    obtain ⟨o1, e1, i1⟩ := ih (by omega)
    have hjl : j < L.length := hj
    rw [List.range_succ, List.foldl_append, e1]
    simp only [List.foldl_cons, List.foldl_nil, List.getElem?_map, List.getElem?_eq_getElem hjl, Option.map_some]
    have hidx : L.idxOf L[j] = j := hn.idxOf_getElem j hjl
    have hmem : L[j] ∈ L := List.getElem_mem hjl
    have hval := i1.val L[j] hmem
    rw [hidx] at hval
    have hnt : L[j] ∉ L.take j := by
      intro hm
      obtain ⟨i, hi, he⟩ := List.getElem_of_mem hm
      rw [List.length_take] at hi
      rw [List.getElem_take] at he
      have := (List.Nodup.getElem_inj_iff hn).1 he
      omega
    have hM : L[j] ∈ M ++ restOf (L.take j) M (c, s) ↔ L[j] ∈ M := by
      rw [List.mem_append]
      refine or_iff_left (fun hm => hnt ?_)
      exact List.mem_of_mem_filter hm
    have htake : L.take (j + 1) = L.take j ++ [L[j]] := by rw [List.take_succ, List.getElem?_eq_getElem hjl]; rfl
    have hty : (L[j].type = (if c then SQType.creation else SQType.annihilation)) ↔ L[j].cre = c := by
      unfold Slot.type
      cases L[j].cre <;> cases c <;> simp
    rw [hI _ hmem]
    have hrest : restOf (L.take (j+1)) M (c, s) = restOf (L.take j) M (c, s) ++ if (L[j] ∉ M ∧ L[j].cre = c ∧ L[j].space = s) then [L[j]] else [] := by
      rw [htake]
      simp only [restOf, List.filter_append, List.filter_cons, List.filter_nil, decide_eq_true_eq]
    have hneg : o1.getD j 0 = -1 ↔ L[j] ∉ M := by
      rw [hval, ← hM]
      split <;> rename_i hx
      · simp only [hx, not_true, iff_false]; omega
      · simp [hx]
    by_cases hc : L[j] ∉ M ∧ L[j].cre = c ∧ L[j].space = s
    · rw [if_pos ⟨hneg.2 hc.1, by exact_mod_cast hc.2.2, hty.2 hc.2.1⟩]
      rw [hrest, if_pos hc, ← List.append_assoc]
      have := oinv_set hn i1 hmem (by rw [hM]; exact hc.1)
      rw [hidx] at this
      exact ⟨_, by simp [add_assoc], this⟩
    · rw [if_neg (by intro hh; exact hc ⟨hneg.1 hh.1, hty.1 hh.2.2, by exact_mod_cast hh.2.1⟩)]
      rw [hrest, if_neg hc, List.append_nil]
      exact ⟨o1, rfl, i1⟩

theorem orderRest_ok {ns : Nat} {L : List Slot} (hn : L.Nodup) (I : Slot → Index) (hI : ∀ x ∈ L, (I x).space = (x.space : Int))
    (M : List Slot) (order : List Int) (h : OInv L M order) :
    ∃ order', (orderRest ns (L.map (fun x => (⟨x.type, I x⟩ : SQOp))) (order, (M.length : Int))).1 = order' ∧
      OInv L (M ++ rest ns L M) order' := by
  have key : ∀ (ps : List (Bool × Nat)) (M' : List Slot) (order : List Int), ps.Nodup → OInv L M' order → M ⊆ M' →
      (∀ x ∈ M', (x.cre, x.space) ∈ ps → x ∈ M) →
      ∃ order', ps.foldl (init := (order, (M'.length : Int))) (fun st p =>
        (List.range (L.map (fun x => (⟨x.type, I x⟩ : SQOp))).length).foldl (init := st) (fun st i =>
          match (L.map (fun x => (⟨x.type, I x⟩ : SQOp)))[i]? with
          | some a =>
            if st.1.getD i 0 = -1 ∧ a.index.space = (p.2 : Int) ∧ a.type = (if p.1 then SQType.creation else SQType.annihilation) then
              (st.1.set i st.2, st.2 + 1)
            else st
          | none => st)) = (order', ((M' ++ ps.flatMap (restOf L M)).length : Int)) ∧ OInv L (M' ++ ps.flatMap (restOf L M)) order' := by
    intro ps
    induction ps with
    | nil => intro M' order _ h _ _; exact ⟨order, by simp, by simpa using h⟩
    | cons p ps ih =>
      intro M' order hnd h hsub hcl
      rcases p with ⟨c, s⟩
      obtain ⟨o1, e1, i1⟩ := restPass_ok hn I hI c s M' order h L.length (le_refl _)
      rw [List.take_length] at e1 i1
      have hr : restOf L M' (c, s) = restOf L M (c, s) := by
        unfold restOf
        apply List.filter_congr
        intro x _
        simp only [decide_eq_decide]
        constructor
        · rintro ⟨h1, h2⟩; exact ⟨fun hm => h1 (hsub hm), h2⟩
        · rintro ⟨h1, h2⟩; exact ⟨fun hm => h1 (hcl x hm (by rw [h2.1, h2.2]; simp)), h2⟩
      rw [hr] at e1 i1
      have hnd' := List.nodup_cons.1 hnd
      obtain ⟨o2, e2, i2⟩ := ih (M' ++ restOf L M (c, s)) o1 hnd'.2 i1 (fun x hx => List.mem_append_left _ (hsub hx)) (by
        intro x hx hps
        rcases List.mem_append.1 hx with hx | hx
        · exact hcl x hx (by simp [hps])
        · have := (List.mem_filter.1 hx).2
          simp only [decide_eq_true_eq] at this
          rw [this.2.1, this.2.2] at hps
          exact absurd hps hnd'.1)
      refine ⟨o2, ?_, by simpa using i2⟩
      rw [List.foldl_cons]
      simp only [List.length_map] at e1 e2 ⊢
      rw [e1, e2]; simp
  obtain ⟨o', e', i'⟩ := key (classes ns) M order (nodup_classes ns) h (fun _ h => h) (fun x h _ => h)
  refine ⟨o', ?_, i'⟩
  have : orderRest ns (L.map (fun x => (⟨x.type, I x⟩ : SQOp))) (order, (M.length : Int)) =
      (o', ((M ++ (classes ns).flatMap (restOf L M)).length : Int)) := by
    rw [← e']
    unfold orderRest classes
    simp only [List.flatMap_cons, List.flatMap_nil, List.append_nil, List.foldl_append, List.foldl_cons, List.foldl_nil, List.foldl_map]
    rfl
  rw [this]

theorem mem_rest {ns : Nat} {L M : List Slot} (hsp : ∀ x ∈ L, x.space < ns) {x : Slot} : x ∈ rest ns L M ↔ x ∈ L ∧ x ∉ M := by
  unfold rest
  simp only [List.mem_flatMap, restOf, List.mem_filter, decide_eq_true_eq, mem_classes]
  constructor
  · rintro ⟨p, _, h1, h2, _⟩; exact ⟨h1, h2⟩
  · rintro ⟨h1, h2⟩; exact ⟨(x.cre, x.space), hsp x h1, h1, h2, rfl, rfl⟩

theorem nodup_rest {ns : Nat} {L M : List Slot} (hn : L.Nodup) : (rest ns L M).Nodup := by
  unfold rest
  rw [List.nodup_flatMap]
  refine ⟨fun p _ => hn.filter _, ?_⟩
  refine (nodup_classes ns).imp ?_
  intro p q hpq
  simp only [Function.onFun, List.disjoint_left]
  intro x hx hy
  simp only [restOf, List.mem_filter, decide_eq_true_eq] at hx hy
  exact hpq (Prod.ext (hx.2.2.1.symm.trans hy.2.2.1) (hx.2.2.2.symm.trans hy.2.2.2))

theorem perm_rest {ns : Nat} {L M : List Slot} (hn : L.Nodup) (hsp : ∀ x ∈ L, x.space < ns) (hM : M.Nodup) (hsub : ∀ x ∈ M, x ∈ L) :
    (M ++ rest ns L M).Perm L := by
  rw [List.perm_ext_iff_of_nodup _ hn]
  · intro x
    rw [List.mem_append, mem_rest hsp]
    constructor
    · rintro (h | h)
      · exact hsub x h
      · exact h.1
    · intro h
      by_cases hx : x ∈ M
      · exact Or.inl hx
      · exact Or.inr ⟨h, hx⟩
  · refine List.nodup_append.2 ⟨hM, nodup_rest hn, ?_⟩
    rintro x hx y hy rfl
    exact ((mem_rest hsp).1 hy).2 hx

/-- the order in the end: every operator has its own final position -/
theorem order_eq {L P : List Slot} {order : List Int} (hn : L.Nodup) (h : OInv L P order) (hP : P.Perm L) :
    order = L.map (posZ P) := by
  apply List.ext_getElem
  · rw [List.length_map, h.len]
  · intro i h1 h2
    rw [List.length_map] at h2
    have hmem : L[i] ∈ L := List.getElem_mem h2
    have := h.val L[i] hmem
    rw [hn.idxOf_getElem i h2, if_pos (hP.mem_iff.2 hmem), List.getD_eq_getElem?_getD, List.getElem?_eq_getElem h1] at this
    rw [List.getElem_map]
    exact this


/-- the blocks of a contraction -/
abbrev blocksOf (o : OSI) (ops : OperatorProduct) (cs : List EContr) : List Block :=
  blocksFrom o.spaces.length ops.length [] cs

/-- contracted operators, in the final order -/
abbrev marked (o : OSI) (ops : OperatorProduct) (cs : List EContr) : List Slot := (blocksOf o ops cs).flatMap Block.flat

/-- uncontracted operators, in the final order -/
abbrev restOps (o : OSI) (ops : OperatorProduct) (cs : List EContr) : List Slot :=
  rest o.spaces.length (slots o.spaces.length ops) (marked o ops cs)

/-- the renaming of indices -/
def pairMap (L : List Slot) (ps : List (Slot × Slot)) : SMap Index Index :=
  ps.foldl (fun m p => SMap.insert (slotIdx L p.1) (slotIdx L p.2) m) []

theorem slots_space_lt {ns : Nat} {ops : OperatorProduct} : ∀ x ∈ slots ns ops, x.space < ns :=
  fun _ hx => (mem_slots.1 hx).2.1

theorem marked_ok {o : OSI} {ops : OperatorProduct} {cs : List EContr} (hE : EvalList o ops cs) :
    (marked o ops cs).Nodup ∧ ∀ x ∈ marked o ops cs, x ∈ slots o.spaces.length ops := by
  refine ⟨nodup_blocks cs [] hE.ev (by intro e' h'; cases h'), ?_⟩
  intro x hx
  rw [marked, mem_blocks cs [] hE.ev (by intro e' h'; cases h')] at hx
  obtain ⟨h1, h2, h3⟩ := hx
  rw [mem_slots]
  have := hE.avail x.op h1 x.space h2
  refine ⟨h1, h2, ?_⟩
  simp only [List.nil_append] at h3
  split at h3 <;> rename_i hc
  · rw [if_pos hc]; omega
  · rw [if_neg hc]; omega

theorem sort_order {L P : List Slot} (hn : L.Nodup) (hP : P.Perm L) (f : Slot → SQOp) :
    stdSort ((L.map (posZ P)).zip (L.map f)) = P.map (fun x => (posZ P x, f x)) := by
  symm
  have hz : (L.map (posZ P)).zip (L.map f) = L.map (fun x => (posZ P x, f x)) := by
    rw [List.zip_map', ]
  rw [hz]
  refine stdSortBy_unique _ _ (hP.map _) ?_
  unfold Sorted
  rw [List.pairwise_map]
  have hPn : P.Nodup := hP.nodup_iff.2 hn
  rw [List.pairwise_iff_getElem]
  intro i j hi hj hij
  have h1 : posZ P P[i] = i := by unfold posZ; rw [hPn.idxOf_getElem i hi]
  have h2 : posZ P P[j] = j := by unfold posZ; rw [hPn.idxOf_getElem j hj]
  rw [h1, h2]
  simp [CppLt.lt]
  omega

/-- **Evaluation never fails**, and what it gives -/
theorem evalCore_ok {o : OSI} {ops : OperatorProduct} {cs : List EContr} (h8 : o.spaces.length ≤ 8) (hE : EvalList o ops cs) :
    (marked o ops cs ++ restOps o ops cs).Perm (slots o.spaces.length ops) ∧
    evalCore o ops cs = .ok ((⟨false, (restOps o ops cs).map (fun x => ⟨x.type, slotIdx (slots o.spaces.length ops) x⟩),
        layTensors o.spaces.length (slotIdx (slots o.spaces.length ops)) 0 ops ++
          (blocksOf o ops cs).flatMap (bTensors o (slots o.spaces.length ops) (slotIdx (slots o.spaces.length ops)))⟩ : STerm).reindex
          (pairMap (slots o.spaces.length ops) ((blocksOf o ops cs).flatMap (bPairs o))),
      ((blocksOf o ops cs).map (bSign o (slots o.spaces.length ops))).prod *
        permutationSign ((slots o.spaces.length ops).map (posZ (marked o ops cs ++ restOps o ops cs)))) := by
  have hL := nodup_slots o.spaces.length ops
  obtain ⟨hM1, hM2⟩ := marked_ok hE
  have hP := perm_rest hL slots_space_lt hM1 hM2
  refine ⟨hP, ?_⟩
  obtain ⟨om, e0, hom⟩ := tensorsSqops_ok o.spaces.length ops
  have hinit : EInv o ops (layTensors o.spaces.length (slotIdx (slots o.spaces.length ops)) 0 ops) []
      (blocksFrom o.spaces.length ops.length [] [])
      { off := List.replicate ops.length GraphMatrix.zero, pos := 0, ncontr := 0, usign := 1, map := [],
        order := List.replicate ((slots o.spaces.length ops).map (fun x => (⟨x.type, slotIdx (slots o.spaces.length ops) x⟩ : SQOp))).length (-1),
        tensors := layTensors o.spaces.length (slotIdx (slots o.spaces.length ops)) 0 ops } := by
    refine ⟨by simp, ?_, ⟨by simp, ?_⟩, by simp [blocksFrom], by simp [blocksFrom], by simp [blocksFrom], by simp [blocksFrom], by simp [blocksFrom]⟩
    · intro v hv s hs
      have : gmAt (List.replicate ops.length GraphMatrix.zero) v = GraphMatrix.zero := by
        unfold gmAt; rw [List.getD_eq_getElem?_getD]; simp [List.getElem?_replicate, hv]
      rw [this]
      simp [takenCre, takenAnn, GraphMatrix.cre_zero, GraphMatrix.ann_zero]
    · intro x hx
      have := List.idxOf_lt_length_of_mem hx
      simp [blocksFrom, List.getD_eq_getElem?_getD, List.getElem?_replicate, this]
  obtain ⟨st, e1, i1⟩ := evalSteps_ok h8 hom cs [] _ hinit (by simpa using hE)
  rw [List.nil_append] at i1
  obtain ⟨order, e2, i2⟩ := orderRest_ok (ns := o.spaces.length) hL (slotIdx (slots o.spaces.length ops)) (fun x hx => slotIdx_space hL hx) _ _ i1.order
  have e3 := order_eq hL i2 hP
  unfold evalCore
  simp only [e0, bind, Except.bind]
  rw [e1]
  simp only [pure, Except.pure]
  rw [i1.pos, e2, e3, sort_order hL hP, i1.usign, i1.map, i1.tensors, i1.ncontr]
  congr 3
  rw [List.map_append, Int.toNat_natCast, List.drop_left' (by simp), List.map_map]
  rfl

end Wick
end Wicked
