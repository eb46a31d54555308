import Verif.Proofs.WickMatch
import Verif.Proofs.WickTerm
import Verif.Proofs.WickContract
import Verif.Props.WickGraph
import Verif.Props.Registry
import Verif.Spec.MaxCumulant
/-! A smaller `maxcumulant_` removes the composite contractions with a large elementary contraction. -/
namespace Wicked
open CppLt CppEq Rational
namespace Wick

/-! ### the enumeration of composite contractions, without the numbers -/

/-- `comp` with the elementary contractions themselves -/
def compL (ns : Nat) (minr maxr : Int) : Nat → List EContr → List GraphMatrix → List CContr
  | 0, _, _ => []
  | fuel + 1, l, free =>
    (if GraphMatrix.sumNumOps free ≥ minr ∧ GraphMatrix.sumNumOps free ≤ maxr then [[]] else []) ++
    l.tails.flatMap (fun t => match t with
      | [] => []
      | e :: t' => if fits ns free e then (compL ns minr maxr fuel (e :: t') (takeLegs ns free e)).map (fun c => e :: c) else [])

theorem compL_filter (ns : Nat) (minr maxr : Int) (p : EContr → Bool) : ∀ (fuel : Nat) (l : List EContr) (free : List GraphMatrix),
    compL ns minr maxr fuel (l.filter p) free = (compL ns minr maxr fuel l free).filter (fun c => c.all p) := by
  intro fuel
  induction fuel with
  | zero => intro l free; rfl
  | succ fuel ih =>
    intro l free
    rw [compL, compL, List.filter_append]
    congr 1
    · split <;> rfl
    · induction l with
      | nil => simp
      | cons e l ihl =>
        by_cases he : p e = true
        · rw [List.filter_cons_of_pos he, List.tails_cons, List.tails_cons, List.flatMap_cons, List.flatMap_cons, List.filter_append, ihl]
          congr 1
          dsimp only
          split
          · rw [← List.filter_cons_of_pos (p := p) (l := l) he, ih, List.filter_map]
            congr 1
            apply List.filter_congr
            intro c _
            simp [he]
          · rfl
        · rw [List.filter_cons_of_neg he, List.tails_cons, List.flatMap_cons, List.filter_append, ihl]
          dsimp only
          have : List.filter (fun c => c.all p) (if fits ns free e = true then List.map (fun c => e :: c) (compL ns minr maxr fuel (e :: l) (takeLegs ns free e)) else []) = [] := by
            rw [List.filter_eq_nil_iff]
            intro c hc
            split at hc
            · obtain ⟨c', _, rfl⟩ := List.mem_map.1 hc
              simp [he]
            · cases hc
          rw [this, List.nil_append]

theorem intRange_cons {lo hi : Int} (h : lo ≤ hi) : intRange lo hi = lo :: intRange (lo + 1) hi := by
  unfold intRange
  have : (hi - lo + 1).toNat = (hi - (lo + 1) + 1).toNat + 1 := by omega
  rw [this, List.range_succ_eq_map, List.map_cons, List.map_map]
  congr 1
  · simp
  · apply List.map_congr_left
    intro k _
    simp only [Function.comp]; push_cast; omega

theorem comp_compL (ns : Nat) (el : List EContr) (minr maxr : Int) : ∀ (fuel : Nat) (m : Nat) (free : List GraphMatrix),
    (comp ns el minr maxr fuel m free).map (pickAt el) = compL ns minr maxr fuel (el.drop m) free := by
  intro fuel
  induction fuel with
  | zero => intro m free; rfl
  | succ fuel ih =>
    intro m free
    rw [comp, compL, List.map_append]
    congr 1
    · split <;> simp [pickAt]
    · obtain ⟨d, hd⟩ : ∃ d, d = el.length - m := ⟨_, rfl⟩
      induction d generalizing m with
      | zero =>
        rw [intRange_empty (by omega), List.drop_eq_nil_of_le (by omega)]
        simp
      | succ d ihd =>
        have hm : m < el.length := by omega
        have hat : elAt el (m : Int) = el[m] := by
          unfold elAt
          rw [Int.toNat_natCast, List.getD_eq_getElem?_getD, List.getElem?_eq_getElem hm]; rfl
        rw [intRange_cons (by omega), List.drop_eq_getElem_cons hm, List.tails_cons, List.flatMap_cons]
        have h1 := ihd (m + 1) (by omega)
        push_cast at h1
        rw [← h1, List.filter_cons]
        dsimp only
        rw [hat]
        split
        · rw [List.flatMap_cons, List.map_append]
          congr 1
          rw [List.map_map, ← List.drop_eq_getElem_cons hm, ← ih, List.map_map, hat]
          apply List.map_congr_left
          intro cv _
          simp only [Function.comp, pickAt, List.map_cons]
          congr 1
        · simp

/-! ### elementary contractions -/

/-- a contraction of more than `k` pairs in a general space -/
def highC (o : OSI) (k : Int) (e : EContr) : Bool :=
  match o.spaceType (espace o.spaces.length e) with
  | .ok .general => decide (2 * k < e.numOps)
  | _ => false

theorem intRange_filter (lo hi k : Int) : (intRange lo hi).filter (fun x => decide (x ≤ k)) = intRange lo (min hi k) := by
  obtain ⟨d, hd⟩ : ∃ d : Nat, d = (hi - lo + 1).toNat := ⟨_, rfl⟩
  induction d generalizing lo with
  | zero => rw [intRange_empty (by omega), intRange_empty (by omega)]; rfl
  | succ d ih =>
    rw [intRange_cons (by omega), List.filter_cons, ih (lo + 1) (by omega)]
    split
    · rename_i h
      have := of_decide_eq_true h
      rw [intRange_cons (lo := lo) (by omega)]
    · rename_i h
      have : ¬ lo ≤ k := fun h' => h (decide_eq_true h')
      rw [intRange_empty (by omega), intRange_empty (by omega)]

theorem flatten_map_filter {α β : Type _} (g : α → List β) (p : β → Bool) (q : α → Bool) (l : List α)
    (h : ∀ a ∈ l, ∀ b ∈ g a, p b = q a) : ((l.map g).flatten).filter p = ((l.filter q).map g).flatten := by
  induction l with
  | nil => rfl
  | cons a l ih =>
    rw [List.map_cons, List.flatten_cons, List.filter_append, ih (fun b hb => h b (by simp [hb])), List.filter_cons]
    have ha := h a (by simp)
    by_cases hq : q a = true
    · rw [if_pos hq, List.map_cons, List.flatten_cons]
      congr 1
      rw [List.filter_eq_self]
      intro b hb; rw [ha b hb, hq]
    · rw [if_neg hq]
      have : (g a).filter p = [] := by
        rw [List.filter_eq_nil_iff]
        intro b hb; rw [ha b hb]; exact hq
      rw [this, List.nil_append]

theorem elemGeneral_filter {o : OSI} {ops : OperatorProduct} {s : Nat} (hs : s < o.spaces.length) (h8 : o.spaces.length ≤ 8)
    (hg : o.spaceType s = .ok .general) {k m : Int} (hk : k ≤ m) {L : List EContr} (h : elemGeneral m ops s = .ok L) :
    elemGeneral k ops s = .ok (L.filter (fun e => !highC o k e)) := by
  have hs8 : s < 8 := by omega
  unfold Wick.elemGeneral at h ⊢
  simp only [foldl_add_eq_sum, Int.zero_add] at h ⊢
  set sc := ((List.range ops.length).map (fun A => (opAt ops A).gm.cre s)).sum with hsc
  set sa := ((List.range ops.length).map (fun A => (opAt ops A).gm.ann s)).sum with hsa
  have hpos : ∀ j ∈ intRange 1 (min (min sc sa) m), 1 ≤ ops.length := by
    intro j hj
    rw [mem_intRange] at hj
    by_contra hn
    have h0 : ops.length = 0 := by omega
    have : sc = 0 := by rw [hsc, h0]; simp
    omega
  obtain ⟨g, hgm, hm⟩ := mapM_fun_ok (Wick.elemGeneralK ops s) (intRange 1 (min (min sc sa) m)) (by
    intro j hj
    obtain ⟨L, hL, _⟩ := generalK_spec (ops := ops) (s := s) hs8 (mem_intRange.1 hj).1 (hpos j hj)
    exact ⟨L, hL⟩)
  have spec : ∀ j ∈ intRange 1 (min (min sc sa) m), ∀ e ∈ g j, (!highC o k e) = decide (j ≤ k) := by
    intro j hj e he
    obtain ⟨L, hL, _, h2⟩ := generalK_spec (ops := ops) (s := s) hs8 (mem_intRange.1 hj).1 (hpos j hj)
    have : L = g j := by
      have := (hgm j hj).symm.trans hL
      injection this with this; exact this.symm
    subst this
    obtain ⟨c, a, hb, hc, ha, _, hLg⟩ := (h2 e).1 he
    have hj1 := (mem_intRange.1 hj).1
    have hsp := (legs_spaces hs hLg (fun A hA => ⟨(hb A hA).1, (hb A hA).2.2.1⟩) (by omega)).2
    have hno := legs_numOps hs8 hLg
    unfold highC
    rw [hsp, hg]
    dsimp only
    rw [hno, hc, ha, ← decide_not]
    congr 1
    apply propext; omega
  rw [hm] at h
  simp only [bind, Except.bind, pure, Except.pure] at h
  injection h with h
  have hm' := mapM_fun_ok (Wick.elemGeneralK ops s) (intRange 1 (min (min sc sa) k)) (by
    intro j hj
    rw [mem_intRange] at hj
    exact ⟨g j, hgm j (mem_intRange.2 (by omega))⟩)
  obtain ⟨g', hg', hm'⟩ := hm'
  rw [hm']
  simp only [bind, Except.bind, pure, Except.pure]
  rw [← h, flatten_map_filter g _ (fun j => decide (j ≤ k)) _ spec, intRange_filter]
  have : min (min (min sc sa) m) k = min (min sc sa) k := by omega
  rw [this]
  congr 2
  apply List.map_congr_left
  intro j hj
  have h1 := hg' j hj
  rw [mem_intRange] at hj
  have h2 := hgm j (mem_intRange.2 (by omega))
  rw [h1] at h2
  injection h2

theorem highC_nongeneral {o : OSI} {ops : OperatorProduct} {s : Nat} (hs : s < o.spaces.length) {m k : Int} {e : EContr}
    (h : IsElementaryS o m ops s e) (hg : o.spaceType s ≠ .ok .general) : highC o k e = false := by
  obtain ⟨s', c, a, j, hs', hLg, hcn, hc, ha, hj, h1⟩ := elementary_evaluable ⟨s, hs, h⟩
  obtain ⟨c', a', hL', hn', A, B, hAB, hB, hA, _⟩ := isElementaryS_touch h
  have : s = s' := legs_space hL' hLg (A := A) (by omega) (by omega)
  subst this
  have hsp := (legs_spaces hs hLg hcn (by omega)).2
  unfold highC
  rw [hsp]
  split
  · rename_i hh; exact absurd hh hg
  · rfl

/-- the elementary contractions for a smaller `maxcumulant_` are the small ones, in the same order -/
theorem elementary_filter {o : OSI} {cfg : WickCfg} {ops : OperatorProduct} (hv : ∀ p ∈ ops, p.Valid o.spaces.length)
    (h8 : o.spaces.length ≤ 8) {k : Int} (hk : k ≤ cfg.maxCumulant) {el : List EContr}
    (h : elementaryContractions o cfg ops = .ok el) :
    elementaryContractions o { cfg with maxCumulant := k } ops = .ok (el.filter (fun e => !highC o k e)) := by
  have hsp : ∀ s ∈ List.range o.spaces.length, ∀ L, elemSpace o cfg ops s = .ok L →
      elemSpace o { cfg with maxCumulant := k } ops s = .ok (L.filter (fun e => !highC o k e)) := by
    intro s hs L hL
    rw [List.mem_range] at hs
    obtain ⟨t, ht⟩ := spaceType_ok o hs
    obtain ⟨L', hL', _, hm⟩ := elemSpace_spec (cfg := cfg) hv hs h8
    rw [hL] at hL'; injection hL' with hL'; subst hL'
    by_cases hg : t = .general
    · subst hg
      unfold elemSpace at hL ⊢
      rw [ht] at hL ⊢
      exact elemGeneral_filter hs h8 ht hk hL
    · have hself : L.filter (fun e => !highC o k e) = L := by
        rw [List.filter_eq_self]
        intro e he
        rw [highC_nongeneral hs ((hm e).1 he) (by rw [ht]; intro hh; injection hh with hh; exact hg hh)]; rfl
      rw [hself, ← hL]
      unfold elemSpace
      rw [ht]
      cases t
      · rfl
      · rfl
      · exact absurd rfl hg
  obtain ⟨g, hg, hm⟩ := mapM_fun_ok (Wick.elemSpace o cfg ops) (List.range o.spaces.length) (by
    intro s hs
    obtain ⟨L, hL, _⟩ := elemSpace_spec (cfg := cfg) hv (List.mem_range.1 hs) h8
    exact ⟨L, hL⟩)
  obtain ⟨g', hg', hm'⟩ := mapM_fun_ok (Wick.elemSpace o { cfg with maxCumulant := k } ops) (List.range o.spaces.length) (by
    intro s hs
    exact ⟨_, hsp s hs _ (hg s hs)⟩)
  unfold elementaryContractions at h ⊢
  rw [hm] at h
  rw [hm']
  simp only [bind, Except.bind, pure, Except.pure] at h ⊢
  injection h with h
  rw [← h, List.filter_flatten, List.map_map]
  congr 2
  apply List.map_congr_left
  intro s hs
  have h1 := hg' s hs
  rw [hsp s hs _ (hg s hs)] at h1
  injection h1 with h1
  exact h1.symm

/-! ### composite contractions -/

theorem composite_comp {ns : Nat} {ops : OperatorProduct} {el : List EContr} (hv : ∀ p ∈ ops, p.Valid ns)
    (hel : ∀ e ∈ el, Good ns ops.length e ∧ 2 ≤ e.numOps) (minr maxr : Int) :
    (Deep ns el (GraphMatrix.sumNumOps (ops.map Operator.gm)) ((GraphMatrix.sumNumOps (ops.map Operator.gm)).toNat + 1) 0 (0 : Nat) (ops.map Operator.gm) →
      compositeContractions ns ops el minr maxr =
        .ok (comp ns el minr maxr ((GraphMatrix.sumNumOps (ops.map Operator.gm)).toNat + 1) (0 : Nat) (ops.map Operator.gm))) ∧
    (¬ Deep ns el (GraphMatrix.sumNumOps (ops.map Operator.gm)) ((GraphMatrix.sumNumOps (ops.map Operator.gm)).toNat + 1) 0 (0 : Nat) (ops.map Operator.gm) →
      compositeContractions ns ops el minr maxr = .error .ub) := by
  have hg := good_ops hv
  have hnn := sumNumOps_nonneg hg
  obtain ⟨hb, hb'⟩ := backtrack_eq hel minr maxr (GraphMatrix.sumNumOps (ops.map Operator.gm)) ((GraphMatrix.sumNumOps (ops.map Operator.gm)).toNat + 1)
    (List.replicate 100 (-1)) 0 (ops.map Operator.gm) [] (0 : Nat) (by simp) (by omega) hg (by omega) (le_refl _) (by omega)
    (by simp)
  constructor
  · intro hS
    unfold compositeContractions; dsimp only
    rw [hb hS]; simp [bind, Except.bind, pure, Except.pure]
  · intro hS
    unfold compositeContractions; dsimp only
    rw [hb' hS]; simp [bind, Except.bind]

theorem length_pickAt (el : List EContr) (cv : List Int) : (pickAt el cv).length = cv.length := by
  unfold pickAt; simp

/-- restricting the elementary contractions restricts the composite contractions, in the same order -/
theorem composite_filter {ns : Nat} {ops : OperatorProduct} {el : List EContr} (hv : ∀ p ∈ ops, p.Valid ns)
    (hel : ∀ e ∈ el, Good ns ops.length e ∧ 2 ≤ e.numOps) (p : EContr → Bool) {minr maxr : Int} {L : List (List Int)}
    (h : compositeContractions ns ops el minr maxr = .ok L) :
    ∃ L', compositeContractions ns ops (el.filter p) minr maxr = .ok L' ∧
      L'.map (pickAt (el.filter p)) = (L.map (pickAt el)).filter (fun c => c.all p) := by
  have hel' : ∀ e ∈ el.filter p, Good ns ops.length e ∧ 2 ≤ e.numOps := fun e he => hel e (List.mem_filter.1 he).1
  obtain ⟨h1, h2⟩ := composite_comp hv hel minr maxr
  obtain ⟨h1', h2'⟩ := composite_comp hv hel' minr maxr
  by_cases hD : Deep ns el (GraphMatrix.sumNumOps (ops.map Operator.gm)) ((GraphMatrix.sumNumOps (ops.map Operator.gm)).toNat + 1) 0 (0 : Nat) (ops.map Operator.gm)
  swap
  · rw [h2 hD] at h; cases h
  rw [h1 hD] at h
  injection h with h
  have hD' : Deep ns (el.filter p) (GraphMatrix.sumNumOps (ops.map Operator.gm)) ((GraphMatrix.sumNumOps (ops.map Operator.gm)).toNat + 1) 0 (0 : Nat) (ops.map Operator.gm) := by
    intro cv hcv
    have hm := List.mem_map_of_mem (f := pickAt (el.filter p)) hcv
    rw [comp_compL, List.drop_zero, compL_filter] at hm
    have hm := (List.mem_filter.1 hm).1
    have h3 := comp_compL ns el 0 (GraphMatrix.sumNumOps (ops.map Operator.gm)) ((GraphMatrix.sumNumOps (ops.map Operator.gm)).toNat + 1) 0 (ops.map Operator.gm)
    rw [List.drop_zero] at h3
    rw [← h3] at hm
    obtain ⟨cv', hcv', e⟩ := List.mem_map.1 hm
    have h4 := hD cv' hcv'
    have h5 := congrArg List.length e
    rw [length_pickAt, length_pickAt] at h5
    omega
  refine ⟨_, h1' hD', ?_⟩
  rw [comp_compL, List.drop_zero, compL_filter, ← h, comp_compL, List.drop_zero]

/-! ### labels -/

theorem cumulantLabel_unique {j j' : Int} {l : Str} (h : CumulantLabel j l) (h' : CumulantLabel j' l) : j = j' := by
  have key : ∀ r : Str, "lambda".toList ++ r ≠ "gamma1".toList ∧ "lambda".toList ++ r ≠ "eta1".toList := by
    intro r
    constructor
    · intro e
      have := congrArg List.head? e
      simp at this
    · intro e
      have := congrArg List.head? e
      simp at this
  rcases h with ⟨rfl, h⟩ | ⟨hj, h⟩ <;> rcases h' with ⟨rfl, h'⟩ | ⟨hj', h'⟩
  · rfl
  · exfalso
    rcases h with h | h
    · exact (key _).1 (h'.symm.trans h)
    · exact (key _).2 (h'.symm.trans h)
  · exfalso
    rcases h' with h' | h'
    · exact (key _).1 (h.symm.trans h')
    · exact (key _).2 (h.symm.trans h')
  · exact intStr_inj (List.append_cancel_left (h.symm.trans h'))

/-- the tensors of the block of a contraction -/
theorem block_label {o : OSI} {n : Nat} {e : EContr} (h8 : o.spaces.length ≤ 8) (h : Evaluable o n e) (pre : List EContr)
    (L : List Slot) (I : Slot → Index) (k : Int) :
    (∃ x ∈ bTensors o L I ⟨espace o.spaces.length e, blkCre n (espace o.spaces.length e) pre e, blkAnn n (espace o.spaces.length e) pre e⟩,
      ∃ j, k < j ∧ CumulantLabel j x.label) ↔ highC o k e = true := by
  have hnn := evaluable_nonneg h
  obtain ⟨s, c, a, j, hs, hLg, hcn, hc, ha, hj, hj1⟩ := h
  obtain ⟨_, hsp⟩ := legs_spaces hs hLg hcn (by omega)
  have hno : e.numOps = 2 * j := by rw [legs_numOps (by omega) hLg, hc, ha]; omega
  rw [hsp]
  have hlc : ((blkCre n s pre e).length : Int) = j := by
    rw [length_blkCre _ _ _ _ (fun v hv => (hnn v hv s).1), ← hc]
    congr 1; apply List.map_congr_left; intro v hv
    rw [(hLg.2 v (List.mem_range.1 hv) s).1, if_pos rfl]
  have hla : ((blkAnn n s pre e).length : Int) = j := by
    rw [length_blkAnn _ _ _ _ (fun v hv => (hnn v hv s).2), ← ha]
    congr 1; apply List.map_congr_left; intro v hv
    rw [(hLg.2 v (List.mem_range.1 hv) s).2, if_pos rfl]
  unfold highC bTensors
  rw [hsp, hno]
  dsimp only
  split
  · have hlab : ∀ x : Tensor, x = (if (blkCre n s pre e).length + (blkAnn n s pre e).length = 2 then
        (if posZ L ((blkCre n s pre e).headD ⟨0, 0, false, 0⟩) < posZ L ((blkAnn n s pre e).headD ⟨0, 0, false, 0⟩) then
          ⟨"gamma1".toList, ((blkAnn n s pre e).map I).reverse, (blkCre n s pre e).map I, .antisymmetric, false⟩
         else ⟨"eta1".toList, ((blkAnn n s pre e).map I).reverse, (blkCre n s pre e).map I, .antisymmetric, false⟩)
       else ⟨"lambda".toList ++ intStr ((blkCre n s pre e).length : Int), ((blkAnn n s pre e).map I).reverse, (blkCre n s pre e).map I, .antisymmetric, false⟩) →
        CumulantLabel j x.label := by
      rintro x rfl
      split
      · left
        refine ⟨by omega, ?_⟩
        split
        · left; rfl
        · right; rfl
      · right
        refine ⟨by omega, ?_⟩
        dsimp only
        rw [hlc]
    rename_i hgen
    rw [hgen]
    dsimp only
    rw [decide_eq_true_iff]
    constructor
    · rintro ⟨x, hx, j', hj', hl⟩
      have := cumulantLabel_unique hl (hlab x (List.mem_singleton.1 hx))
      omega
    · intro hh
      exact ⟨_, List.mem_singleton.2 rfl, j, by omega, hlab _ rfl⟩
  · rename_i hng
    split
    · rename_i hh; exact absurd hh hng
    · simp

theorem blocks_label {o : OSI} {n : Nat} (h8 : o.spaces.length ≤ 8) (L : List Slot) (I : Slot → Index) (k : Int) :
    ∀ (cs pre : List EContr), (∀ e ∈ cs, Evaluable o n e) →
    ((∃ x ∈ (blocksFrom o.spaces.length n pre cs).flatMap (bTensors o L I), ∃ j, k < j ∧ CumulantLabel j x.label) ↔
      ∃ e ∈ cs, highC o k e = true) := by
  intro cs
  induction cs with
  | nil => intro pre _; simp [blocksFrom]
  | cons e cs ih =>
    intro pre h
    rw [blocksFrom, List.flatMap_cons]
    have h1 := block_label h8 (h e (by simp)) pre L I k
    have h2 := ih (pre ++ [e]) (fun e' he' => h e' (by simp [he']))
    simp only [List.mem_append, List.mem_cons]
    constructor
    · rintro ⟨x, hx | hx, hj⟩
      · exact ⟨e, .inl rfl, h1.1 ⟨x, hx, hj⟩⟩
      · obtain ⟨e', he', hh⟩ := h2.1 ⟨x, hx, hj⟩
        exact ⟨e', .inr he', hh⟩
    · rintro ⟨e', rfl | he', hh⟩
      · obtain ⟨x, hx, hj⟩ := h1.2 hh
        exact ⟨x, .inl hx, hj⟩
      · obtain ⟨x, hx, hj⟩ := h2.2 ⟨e', he', hh⟩
        exact ⟨x, .inr hx, hj⟩

theorem layTensors_label (ns : Nat) (I : Slot → Index) : ∀ (ops : OperatorProduct) (k : Nat),
    ∀ y ∈ layTensors ns I k ops, ∃ p ∈ ops, y.label = p.label := by
  intro ops
  induction ops with
  | nil => intro k y hy; cases hy
  | cons p ops ih =>
    intro k y hy
    rw [layTensors] at hy
    rcases List.mem_cons.1 hy with rfl | hy
    · exact ⟨p, by simp, rfl⟩
    · obtain ⟨q, hq, e⟩ := ih _ y hy
      exact ⟨q, by simp [hq], e⟩

theorem cumulantAbove_labels {k : Int} {t t' : STerm} (h : ∀ l, l ∈ t.tensors.map Tensor.label ↔ l ∈ t'.tensors.map Tensor.label) :
    t.CumulantAbove k ↔ t'.CumulantAbove k := by
  have key : ∀ {t t' : STerm}, (∀ l, l ∈ t.tensors.map Tensor.label → l ∈ t'.tensors.map Tensor.label) →
      t.CumulantAbove k → t'.CumulantAbove k := by
    rintro t t' h ⟨x, hx, j, hj, hl⟩
    obtain ⟨y, hy, e⟩ := List.mem_map.1 (h x.label (List.mem_map.2 ⟨x, hx, rfl⟩))
    exact ⟨y, hy, j, hj, by rw [e]; exact hl⟩
  exact ⟨key (fun l => (h l).1), key (fun l => (h l).2)⟩

theorem canonicalize_labels {o : OSI} {t t' : STerm} {f : Rational} (h : t.canonicalize o = .ok (t', f)) :
    (t'.tensors.map Tensor.label).Perm (t.tensors.map Tensor.label) := by
  obtain ⟨ρ, tensors, ts, hs⟩ := canonicalize_shape h
  obtain ⟨_, _, l, h3, h4⟩ := canonicalize_renamed hs
  have h5 : t'.tensors.map Tensor.label = l.map Tensor.label := by
    clear h3 hs h
    generalize t'.tensors = l' at h4
    induction h4 with
    | nil => rfl
    | cons h1 _ ih => rw [List.map_cons, List.map_cons, ih, h1.1]
  rw [h5]
  refine (h3.map _).trans (List.Perm.of_eq ?_)
  unfold STerm.subst
  rw [List.map_map]
  rfl

theorem numOps_perm {e e' : EContr} (h : e.Perm e') : e.numOps = e'.numOps := by
  unfold EContr.numOps GraphMatrix.sumNumOps
  rw [foldl_add_eq_sum, foldl_add_eq_sum, (h.map _).sum_eq]

theorem highC_row {o : OSI} {n : Nat} {p : List Int} (hp : IsPermOf n p) {e : EContr} (h : Evaluable o n e) (k : Int) :
    highC o k (p.map (fun i => gmAt e i.toNat)) = highC o k e := by
  have h1 : (p.map (fun i => gmAt e i.toNat)).Perm e := by
    refine (hp.map _).trans (List.Perm.of_eq ?_)
    rw [List.map_map]
    have hl : e.length = n := evaluable_len h
    conv_rhs => rw [list_eq_map_gmAt e, hl]
    rfl
  unfold highC
  rw [espace_row hp h, numOps_perm h1]

/-- which terms contain a large cumulant -/
theorem processOne_label {o : OSI} {cfg : WickCfg} {ops : OperatorProduct} {cs : CContr} (h8 : o.spaces.length ≤ 8)
    (hv : ∀ p ∈ ops, p.Valid o.spaces.length) (hE : EvalList o ops cs) {k : Int}
    (hlab : ∀ p ∈ ops, ∀ j, k < j → ¬ CumulantLabel j p.label) {f : Rational} {r : STerm × Rational}
    (h : processOne o cfg ops cs f = .ok r) : r.1.CumulantAbove k ↔ ∃ e ∈ cs, highC o k e = true := by
  obtain ⟨g, s, hA, _, hE', _, hp⟩ := processOne_eq (cfg := cfg) h8 hv hE
  rw [hp f] at h
  cases hc : (listTerm o (graphOps ops g) (blocksOf o (graphOps ops g) (graphContr cs g)) (restOps o (graphOps ops g) (graphContr cs g))).canonicalize o with
  | error err => rw [hc] at h; cases h
  | ok c =>
    rw [hc] at h
    simp only [bind, Except.bind, pure, Except.pure] at h
    injection h with h
    have hl := canonicalize_labels (t' := c.1) (f := c.2) hc
    have e1 : r.1 = c.1 := by rw [← h]
    rw [e1, cumulantAbove_labels (fun l => hl.mem_iff)]
    have hgr : (∃ e ∈ graphContr cs g, highC o k e = true) ↔ ∃ e ∈ cs, highC o k e = true := by
      have hperm := graphContr_perm (p := g.1) (c := g.2) hA.contr
      constructor
      · rintro ⟨e, he, hh⟩
        obtain ⟨e', he', rfl⟩ := List.mem_map.1 (hperm.mem_iff.1 he)
        rw [highC_row hA.ops (hE.ev e' he')] at hh
        exact ⟨e', he', hh⟩
      · rintro ⟨e, he, hh⟩
        exact ⟨_, hperm.mem_iff.2 (List.mem_map.2 ⟨e, he, rfl⟩), by rw [highC_row hA.ops (hE.ev e he)]; exact hh⟩
    rw [← hgr]
    have hb := blocks_label h8 (slots o.spaces.length (graphOps ops g)) (slotIdx (slots o.spaces.length (graphOps ops g))) k
      (graphContr cs g) [] hE'.ev
    rw [← hb]
    unfold STerm.CumulantAbove listTerm STerm.reindex
    simp only [List.mem_map, List.mem_append]
    constructor
    · rintro ⟨x, ⟨y, hy | hy, rfl⟩, j, hj, hl⟩
      · obtain ⟨p, hp, e⟩ := layTensors_label _ _ _ _ y hy
        exfalso
        have hl' : CumulantLabel j y.label := hl
        rw [e] at hl'
        exact hlab p ((perm_graphOps (c := g.2) hA.ops).mem_iff.1 hp) j hj hl'
      · exact ⟨y, hy, j, hj, hl⟩
    · rintro ⟨x, hx, j, hj, hl⟩
      exact ⟨_, ⟨x, .inr hx, rfl⟩, j, hj, hl⟩

theorem processOne_cfg {o : OSI} {cfg cfg' : WickCfg} (h : cfg.canonGraph = cfg'.canonGraph) (ops : OperatorProduct) (cs : CContr) (f : Rational) :
    processOne o cfg ops cs f = processOne o cfg' ops cs f := by
  unfold processOne
  rw [h]

/-- mapping over a filtered list -/
theorem mapM_filter {α β : Type} (F : α → Res β) (p : α → Bool) (q : β → Bool) {l : List α} {rs : List β}
    (h : l.mapM (m := Except Fault) F = .ok rs) (hpq : ∀ a ∈ l, ∀ b, F a = .ok b → p a = q b) :
    (l.filter p).mapM (m := Except Fault) F = .ok (rs.filter q) := by
  rw [mapM_ok_iff] at h ⊢
  induction h with
  | nil => exact .nil
  | @cons a b l rs h1 h2 ih =>
    have hab := hpq a (by simp) b h1
    have := ih (fun a' ha' => hpq a' (by simp [ha']))
    rw [List.filter_cons, List.filter_cons, hab]
    split
    · exact .cons h1 this
    · exact this

open Classical in
/-- the contributions for a smaller `maxcumulant_` are those without a large cumulant -/
theorem unitTerms_filter {o : OSI} {cfg : WickCfg} {ops : OperatorProduct} (h8 : o.spaces.length ≤ 8)
    (hv : ∀ p ∈ ops, p.Valid o.spaces.length) {k : Int} (hk : k ≤ cfg.maxCumulant)
    (hlab : ∀ p ∈ ops, ∀ j, k < j → ¬ CumulantLabel j p.label) {minr maxr : Int} {rs : List (STerm × Rational)}
    (h : unitTerms o cfg ops minr maxr = .ok rs) :
    unitTerms o { cfg with maxCumulant := k } ops minr maxr = .ok (rs.filter (fun r => decide (¬ r.1.CumulantAbove k))) := by
  have hu : ∀ cfg' : WickCfg, ∀ el, elementaryContractions o cfg' ops = .ok el → ∀ L,
      compositeContractions o.spaces.length ops el minr maxr = .ok L →
      unitTerms o cfg' ops minr maxr = (L.map (pickAt el)).mapM (m := Except Fault) (fun cs => processOne o cfg' ops cs (Rational.ofInt 1)) ∧
      ∀ cs ∈ L.map (pickAt el), EvalList o ops cs := by
    intro cfg' el hel L hL
    have hg := elementary_sizes h8 hv hel
    by_cases hsh : Shallow o.spaces.length ops el
    swap
    · rw [(composite_spec hv h8 hg minr maxr).2 hsh] at hL; cases hL
    obtain ⟨L', hL', _, hn, hm⟩ := (composite_spec hv h8 hg minr maxr).1 hsh
    rw [hL] at hL'; injection hL' with hL'; subst hL'
    have hfil : L.filter (inWindow el ops minr maxr) = L := by
      rw [List.filter_eq_self]
      intro cv hcv
      have hc := (hm cv).1 hcv
      exact (inWindow_iff hv h8 (fun e he => (hg e he).1) hc.range minr maxr).2 hc.window
    constructor
    · unfold unitTerms
      rw [hel]
      simp only [bind, Except.bind, hL, hfil]
      rw [List.mapM_map]
      rfl
    · intro cs hcs
      obtain ⟨cv, hcv, rfl⟩ := List.mem_map.1 hcs
      exact composite_evalList h8 hv hel ((hm cv).1 hcv)
  obtain ⟨el, hel, _, _⟩ := elementary_spec (cfg := cfg) hv h8
  have hg := elementary_sizes h8 hv hel
  cases hL : compositeContractions o.spaces.length ops el minr maxr with
  | error err =>
    unfold unitTerms at h
    rw [hel] at h
    simp only [bind, Except.bind, hL] at h
    cases h
  | ok L =>
    obtain ⟨h1, hE⟩ := hu cfg el hel L hL
    rw [h1] at h
    have hel' := elementary_filter hv h8 hk hel
    obtain ⟨L', hL', e⟩ := composite_filter hv hg (fun e => !highC o k e) hL
    rw [(hu _ _ hel' L' hL').1, e]
    have hF : (fun cs => processOne o { cfg with maxCumulant := k } ops cs (Rational.ofInt 1)) = fun cs => processOne o cfg ops cs (Rational.ofInt 1) := by
      funext cs; exact processOne_cfg rfl _ _ _
    rw [hF]
    refine mapM_filter _ _ _ h ?_
    intro cs hcs r hr
    have hl := processOne_label h8 hv (hE cs hcs) hlab hr
    rw [Bool.eq_iff_iff, decide_eq_true_iff, hl, List.all_eq_true]
    push Not
    constructor
    · intro hh e he; have := hh e he; simp_all
    · intro hh e he; have := hh e he; simp_all

theorem cumulantAbove_eqv {k : Int} {t t' : STerm} (h : eqv t t' = true) : t.CumulantAbove k ↔ t'.CumulantAbove k := by
  have := congrArg Prod.fst (sterm_eqv.1 h)
  have h2 : t.tensors.map Tensor.label = t'.tensors.map Tensor.label := by
    have h3 := congrArg (List.map Prod.fst) this
    unfold STerm.key at h3
    simp only [List.map_map] at h3
    exact h3
  exact cumulantAbove_labels (fun l => by rw [h2])

open Classical in
theorem ucoef_filter (k : Int) (rs : List (STerm × Rational)) (t : STerm) :
    ucoef (rs.filter (fun r => decide (¬ r.1.CumulantAbove k))) t = if t.CumulantAbove k then 0 else ucoef rs t := by
  unfold ucoef
  induction rs with
  | nil => simp
  | cons r rs ih =>
    rw [List.filter_cons, List.map_cons, List.sum_cons]
    by_cases hr : r.1.CumulantAbove k
    · rw [if_neg (by simp [hr]), ih]
      by_cases ht : t.CumulantAbove k
      · simp [ht]
      · have : ¬ eqv r.1 t = true := fun he => ht ((cumulantAbove_eqv he).1 hr)
        simp [ht, this]
    · rw [if_pos (by simp [hr]), List.map_cons, List.sum_cons, ih]
      by_cases ht : t.CumulantAbove k
      · have : ¬ eqv r.1 t = true := fun he => hr ((cumulantAbove_eqv he).2 ht)
        simp [ht, this]
      · simp [ht]

end Wick
end Wicked
