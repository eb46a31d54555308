import Verif.Proofs.Layout
/-! `evaluate_contraction`: the shape of the result -/
namespace Wicked
open CppLt CppEq
namespace Wick

/-- what `evaluate` needs of a contraction: its operators are in one registered space, `k ≥ 1` creation and `k`
annihilation operators, and `k = 1` unless the space is general -/
def Evaluable (o : OSI) (n : Nat) (e : EContr) : Prop :=
  ∃ (s : Nat) (c a : Nat → Int) (k : Int), s < o.spaces.length ∧ Legs n s c a e ∧ (∀ A < n, 0 ≤ c A ∧ 0 ≤ a A) ∧
    ((List.range n).map c).sum = k ∧ ((List.range n).map a).sum = k ∧ 1 ≤ k ∧ (o.spaceType s ≠ .ok .general → k = 1)

theorem sum_ind (n l : Nat) (hl : l < n) : ((List.range n).map (fun A => if A = l then (1 : Int) else 0)).sum = 1 := by
  have := sum_range_ite n l (fun _ => 1)
  rw [this, if_pos hl]

theorem elementary_evaluable {o : OSI} {m : Int} {ops : OperatorProduct} {e : EContr}
    (h : IsElementary o m ops e) : Evaluable o ops.length e := by
  have indn : ∀ l A : Nat, (0 : Int) ≤ if A = l then 1 else 0 := by intro l A; split <;> omega
  obtain ⟨s, hs, h⟩ := h
  rcases h with ⟨_, l, r, hlr, hr, _, _, hL⟩ | ⟨_, l, r, hlr, hr, _, _, hL⟩ | ⟨hg, c, a, k, hk, _, hb, hc, ha, _, hL⟩
  · exact ⟨s, _, _, 1, hs, hL, fun A _ => ⟨indn l A, indn r A⟩, sum_ind _ l (by omega), sum_ind _ r hr, le_refl _, fun _ => rfl⟩
  · exact ⟨s, _, _, 1, hs, hL, fun A _ => ⟨indn r A, indn l A⟩, sum_ind _ r hr, sum_ind _ l (by omega), le_refl _, fun _ => rfl⟩
  · exact ⟨s, c, a, k, hs, hL, fun A hA => ⟨(hb A hA).1, (hb A hA).2.2.1⟩, hc, ha, hk, fun h => absurd hg h⟩

/-- the space of a contraction -/
def espace (ns : Nat) (e : EContr) : Nat := (e.spaces ns).headD 0

theorem exists_pos_of_sum {n : Nat} {c : Nat → Int} (h : 1 ≤ ((List.range n).map c).sum) : ∃ A < n, 0 < c A := by
  by_contra hne
  push Not at hne
  have key : ∀ l : List Nat, (∀ A ∈ l, c A ≤ 0) → (l.map c).sum ≤ 0 := by
    intro l
    induction l with
    | nil => simp
    | cons A l ih =>
      intro h
      have h1 := ih (fun B hB => h B (by simp [hB]))
      have h2 := h A (by simp)
      simp only [List.map_cons, List.sum_cons]; omega
  have := key (List.range n) (fun A hA => hne A (List.mem_range.1 hA))
  omega

theorem legs_spaces {ns n s : Nat} {c a : Nat → Int} {e : EContr} (hs : s < ns) (hL : Legs n s c a e)
    (hnn : ∀ A < n, 0 ≤ c A ∧ 0 ≤ a A) (hk : 1 ≤ ((List.range n).map c).sum) :
    e.space0 ns = .ok s ∧ espace ns e = s := by
  have hmem : ∀ t ∈ e.spaces ns, t = s := by
    intro t ht
    unfold EContr.spaces at ht
    obtain ⟨g, hg, ht⟩ := List.mem_flatMap.1 ht
    obtain ⟨A, hA, rfl⟩ := List.getElem_of_mem hg
    have hA' : A < n := by rw [← hL.1]; exact hA
    have hgm : gmAt e A = e[A] := by simp [gmAt, hA]
    have := hL.2 A hA' t
    by_contra hne
    rw [if_neg hne, if_neg hne, hgm] at this
    have h2 := (List.mem_filter.1 ht).2
    rw [this.1, this.2] at h2; simp at h2
  obtain ⟨A, hA, hp⟩ := exists_pos_of_sum hk
  have hne : s ∈ e.spaces ns := by
    unfold EContr.spaces
    have hA' : A < e.length := by rw [hL.1]; exact hA
    refine List.mem_flatMap.2 ⟨e[A], List.getElem_mem hA', List.mem_filter.2 ⟨List.mem_range.2 hs, ?_⟩⟩
    have hgm : gmAt e A = e[A] := by simp [gmAt, hA']
    have := hL.2 A hA s
    rw [if_pos rfl, if_pos rfl, hgm] at this
    rw [this.1, this.2]
    have := (hnn A hA).2
    simp; omega
  cases hsp : e.spaces ns with
  | nil => rw [hsp] at hne; cases hne
  | cons t l =>
    have := hmem t (by rw [hsp]; simp)
    subst this
    unfold EContr.space0 espace
    rw [hsp]; exact ⟨rfl, rfl⟩

/-- creation operators that `e` takes after the contractions `pre` -/
def blkCre (n s : Nat) (pre : List EContr) (e : EContr) : List Slot :=
  (List.range n).flatMap (fun v => (List.range ((gmAt e v).cre s).toNat).map
    (fun i => ⟨v, s, true, (takenCre pre v s).toNat + i⟩))

/-- annihilation operators that `e` takes after the contractions `pre` -/
def blkAnn (n s : Nat) (pre : List EContr) (e : EContr) : List Slot :=
  (List.range n).flatMap (fun v => (List.range ((gmAt e v).ann s).toNat).map
    (fun i => ⟨v, s, false, (takenAnn pre v s).toNat + i⟩))

/-- the blocks of slots that the contractions take, one after the other -/
def blocksFrom (ns n : Nat) : List EContr → List EContr → List Block
  | _, [] => []
  | pre, e :: cs => ⟨espace ns e, blkCre n (espace ns e) pre e, blkAnn n (espace ns e) pre e⟩ :: blocksFrom ns n (pre ++ [e]) cs

/-- position of a slot -/
def posZ (L : List Slot) (x : Slot) : Int := (L.idxOf x : Int)

/-- `op_map` holds the positions of the slots -/
def MapsTo (L : List Slot) (om : OpMap) : Prop :=
  ∀ x p, SMap.find (Slot.key x) om = some p ↔ ∃ q : Nat, p = q ∧ L[q]? = some x

theorem find_pos {L : List Slot} {om : OpMap} (hn : L.Nodup) (h : MapsTo L om) {x : Slot} (hx : x ∈ L) :
    SMap.find (Slot.key x) om = some (posZ L x) := by
  rw [h]
  refine ⟨L.idxOf x, rfl, ?_⟩
  have := List.idxOf_lt_length_of_mem hx
  rw [List.getElem?_eq_getElem this, List.getElem_idxOf this]

theorem getD_set_self' {α : Type _} (l : List α) (i j : Nat) (v d : α) (h : i < l.length) :
    (l.set i v).getD j d = if j = i then v else l.getD j d := by
  simp only [List.getD_eq_getElem?_getD, List.getElem?_set]
  by_cases hij : i = j
  · subst hij; simp [h]
  · simp [hij, Ne.symm hij]

theorem elementsToPos_ok {ns n s : Nat} {e : EContr} {off : List GraphMatrix} {om : OpMap} {L : List Slot} {cr : Bool}
    (hn : L.Nodup) (hm : MapsTo L om) (h0 : e.space0 ns = .ok s) (he : e.length = n) (ho : off.length = n)
    (hoff : ∀ v < n, 0 ≤ (if cr then (gmAt off v).cre s else (gmAt off v).ann s))
    (hin : ∀ v < n, ∀ i < (if cr then (gmAt e v).cre s else (gmAt e v).ann s).toNat,
      (⟨v, s, cr, (if cr then (gmAt off v).cre s else (gmAt off v).ann s).toNat + i⟩ : Slot) ∈ L) :
    ∃ off', elementsToPos ns e off om cr = .ok (((List.range n).flatMap (fun v =>
        (List.range (if cr then (gmAt e v).cre s else (gmAt e v).ann s).toNat).map (fun i =>
          (⟨v, s, cr, (if cr then (gmAt off v).cre s else (gmAt off v).ann s).toNat + i⟩ : Slot)))).map (posZ L), off') ∧
      off'.length = n ∧ ∀ v < n, gmAt off' v = if cr
        then (gmAt off v).setCre s ((gmAt off v).cre s + (gmAt e v).cre s)
        else (gmAt off v).setAnn s ((gmAt off v).ann s + (gmAt e v).ann s) := by
  unfold elementsToPos
  rw [h0]
  simp only [bind, Except.bind]
  rw [he]
  have key : ∀ m ≤ n, ∃ off', (List.range m).foldlM (m := Except Fault) (fun st v => do
      let g := gmAt e v
      let nops := if cr then g.cre s else g.ann s
      let h ← match (st : List Int × List GraphMatrix).2[v]? with
        | some h => pure h
        | none => throw .ub
      let opsOff := if cr then h.cre s else h.ann s
      let pos ← (intRange 0 (nops - 1)).mapM (m := Except Fault) (fun i =>
        match om.find (((v : Int), (s : Int), cr, opsOff + i) : OpKey) with
        | some p => .ok p
        | none => .error .exit)
      return (st.1 ++ pos, st.2.set v (if cr then h.setCre s (opsOff + nops) else h.setAnn s (opsOff + nops))))
      (([] : List Int), off) = .ok (((List.range m).flatMap (fun v =>
        (List.range (if cr then (gmAt e v).cre s else (gmAt e v).ann s).toNat).map (fun i =>
          (⟨v, s, cr, (if cr then (gmAt off v).cre s else (gmAt off v).ann s).toNat + i⟩ : Slot)))).map (posZ L), off') ∧
      off'.length = n ∧ (∀ v < m, gmAt off' v = if cr
        then (gmAt off v).setCre s ((gmAt off v).cre s + (gmAt e v).cre s)
        else (gmAt off v).setAnn s ((gmAt off v).ann s + (gmAt e v).ann s)) ∧ (∀ v, m ≤ v → gmAt off' v = gmAt off v) := by
    intro m
    induction m with
    | zero => intro _; exact ⟨off, rfl, ho, by omega, fun _ _ => rfl⟩
    | succ m ih =>
      intro hmn
      obtain ⟨off1, e1, l1, a1, b1⟩ := ih (by omega)
      have hlt : m < off1.length := by omega
      have hg : off1[m]? = some (gmAt off m) := by
        rw [← b1 m (le_refl m)]
        unfold gmAt
        rw [List.getD_eq_getElem?_getD, List.getElem?_eq_getElem hlt]; rfl
      have hpos : (intRange 0 ((if cr then (gmAt e m).cre s else (gmAt e m).ann s) - 1)).mapM (m := Except Fault) (fun i =>
          match om.find (((m : Int), (s : Int), cr, (if cr then (gmAt off m).cre s else (gmAt off m).ann s) + i) : OpKey) with
          | some p => .ok p
          | none => .error .exit) = .ok (((List.range (if cr then (gmAt e m).cre s else (gmAt e m).ann s).toNat).map (fun i =>
            (⟨m, s, cr, (if cr then (gmAt off m).cre s else (gmAt off m).ann s).toNat + i⟩ : Slot))).map (posZ L)) := by
        rw [intRange0, mapM_ok_iff, List.forall₂_map_left_iff, List.forall₂_map_right_iff, List.forall₂_map_right_iff,
          List.forall₂_same]
        intro i hi
        have hi' := List.mem_range.1 hi
        have hk : (((m : Int), (s : Int), cr, (if cr then (gmAt off m).cre s else (gmAt off m).ann s) + (i : Int)) : OpKey) =
            (⟨m, s, cr, (if cr then (gmAt off m).cre s else (gmAt off m).ann s).toNat + i⟩ : Slot).key := by
          unfold Slot.key
          simp only [Prod.mk.injEq, true_and]
          have := hoff m (by omega)
          omega
        rw [hk, find_pos hn hm (hin m (by omega) i hi')]
      refine ⟨off1.set m (if cr
          then (gmAt off m).setCre s ((gmAt off m).cre s + (gmAt e m).cre s)
          else (gmAt off m).setAnn s ((gmAt off m).ann s + (gmAt e m).ann s)), ?_, by simpa using l1, ?_, ?_⟩
      · rw [List.range_succ, List.foldlM_append, e1]
        simp only [bind, Except.bind, List.foldlM_cons, List.foldlM_nil, hg, pure, Except.pure]
        rw [hpos]
        simp only
        rw [List.flatMap_append, List.map_append]
        simp only [List.flatMap_cons, List.flatMap_nil, List.append_nil]
        cases cr <;> rfl
      · intro v hv
        unfold gmAt
        rw [getD_set_self' _ _ _ _ _ hlt]
        by_cases hvm : v = m
        · rw [if_pos hvm, hvm]
        · rw [if_neg hvm]; exact a1 v (by omega)
      · intro v hv
        unfold gmAt
        rw [getD_set_self' _ _ _ _ _ hlt, if_neg (by omega)]
        exact b1 v (by omega)
  obtain ⟨off', h1, h2, h3, _⟩ := key n (le_refl n)
  exact ⟨off', h1, h2, h3⟩

/-! ### marking positions -/

/-- `sign_order` when the slots `M` have been numbered -/
structure OInv (L M : List Slot) (order : List Int) : Prop where
  len : order.length = L.length
  val : ∀ x ∈ L, order.getD (L.idxOf x) 0 = if x ∈ M then (M.idxOf x : Int) else -1

theorem oinv_set {L M : List Slot} {order : List Int} (hn : L.Nodup) (h : OInv L M order) {x : Slot} (hx : x ∈ L) (hxM : x ∉ M) :
    OInv L (M ++ [x]) (order.set (L.idxOf x) (M.length : Int)) := by
  have hlt : L.idxOf x < order.length := by rw [h.len]; exact List.idxOf_lt_length_of_mem hx
  refine ⟨by simp [h.len], ?_⟩
  intro y hy
  rw [getD_set_self' _ _ _ _ _ hlt]
  by_cases hxy : y = x
  · subst hxy
    rw [if_pos rfl, if_pos (by simp), List.idxOf_append_of_notMem hxM]; simp
  · have hne : L.idxOf y ≠ L.idxOf x := by
      intro he
      exact hxy ((List.idxOf_inj hy).1 he)
    rw [if_neg hne, h.val y hy]
    by_cases hyM : y ∈ M
    · rw [if_pos hyM, if_pos (by simp [hyM]), List.idxOf_append_of_mem hyM]
    · rw [if_neg hyM, if_neg (by simp [hyM, hxy])]

theorem markAll_ok {L : List Slot} (hn : L.Nodup) : ∀ (xs M : List Slot) (order : List Int), OInv L M order → (∀ x ∈ xs, x ∈ L) →
    (M ++ xs).Nodup → ∃ order', markAll (xs.map (posZ L)) (order, (M.length : Int)) = .ok (order', ((M ++ xs).length : Int)) ∧
      OInv L (M ++ xs) order' := by
  intro xs
  induction xs with
  | nil => intro M order h _ _; exact ⟨order, by simp [markAll, pure, Except.pure], by simpa using h⟩
  | cons x xs ih =>
    intro M order h hx hnd
    have hxM : x ∉ M := fun hm => (List.nodup_append.1 hnd).2.2 x hm x (by simp) rfl
    have h1 := oinv_set hn h (hx x (by simp)) hxM
    obtain ⟨o2, e2, i2⟩ := ih (M ++ [x]) _ h1 (fun y hy => hx y (by simp [hy])) (by simpa using hnd)
    refine ⟨o2, ?_, by simpa using i2⟩
    have hw : wr order (posZ L x) (M.length : Int) = .ok (order.set (L.idxOf x) (M.length : Int)) := by
      unfold wr posZ
      rw [if_pos ⟨by omega, by rw [h.len]; simpa using List.idxOf_lt_length_of_mem (hx x (by simp))⟩]; simp
    unfold markAll at e2 ⊢
    rw [List.map_cons, List.foldlM_cons, hw]
    simp only [bind, Except.bind, pure, Except.pure] at e2 ⊢
    simp only [List.length_append, List.length_cons, List.length_nil] at e2 ⊢
    push_cast at e2 ⊢
    rw [e2]
    congr 2; omega

/-! ### one contraction -/

/-- the tensor that a block contributes -/
def bTensors (o : OSI) (L : List Slot) (I : Slot → Index) (b : Block) : List Tensor :=
  match o.spaceType b.space with
  | .ok .general =>
    [if b.cre.length + b.ann.length = 2 then
      (if posZ L (b.cre.headD ⟨0, 0, false, 0⟩) < posZ L (b.ann.headD ⟨0, 0, false, 0⟩) then
        ⟨"gamma1".toList, (b.ann.map I).reverse, b.cre.map I, .antisymmetric, false⟩
       else ⟨"eta1".toList, (b.ann.map I).reverse, b.cre.map I, .antisymmetric, false⟩)
     else ⟨"lambda".toList ++ intStr (b.cre.length : Int), (b.ann.map I).reverse, b.cre.map I, .antisymmetric, false⟩]
  | _ => []

/-- the sign that a block contributes -/
def bSign (o : OSI) (L : List Slot) (b : Block) : Int :=
  match o.spaceType b.space with
  | .ok .unoccupied => -1
  | .ok .general => if b.cre.length + b.ann.length = 2 ∧
      ¬ posZ L (b.cre.headD ⟨0, 0, false, 0⟩) < posZ L (b.ann.headD ⟨0, 0, false, 0⟩) then -1 else 1
  | _ => 1

/-- the renaming of an index that a block contributes -/
def bPairs (o : OSI) (b : Block) : List (Slot × Slot) :=
  match o.spaceType b.space with
  | .ok .occupied => [(b.ann.headD ⟨0, 0, false, 0⟩, b.cre.headD ⟨0, 0, false, 0⟩)]
  | .ok .unoccupied => [(b.cre.headD ⟨0, 0, false, 0⟩, b.ann.headD ⟨0, 0, false, 0⟩)]
  | _ => []

theorem length_blkCre (n s : Nat) (pre : List EContr) (e : EContr) (h : ∀ v < n, 0 ≤ (gmAt e v).cre s) :
    ((blkCre n s pre e).length : Int) = ((List.range n).map (fun v => (gmAt e v).cre s)).sum := by
  unfold blkCre
  rw [List.length_flatMap]
  simp only [List.length_map, List.length_range]
  rw [Nat.cast_list_sum, List.map_map]
  congr 1
  apply List.map_congr_left
  intro v hv
  have := h v (List.mem_range.1 hv)
  simp only [Function.comp]; omega

theorem length_blkAnn (n s : Nat) (pre : List EContr) (e : EContr) (h : ∀ v < n, 0 ≤ (gmAt e v).ann s) :
    ((blkAnn n s pre e).length : Int) = ((List.range n).map (fun v => (gmAt e v).ann s)).sum := by
  unfold blkAnn
  rw [List.length_flatMap]
  simp only [List.length_map, List.length_range]
  rw [Nat.cast_list_sum, List.map_map]
  congr 1
  apply List.map_congr_left
  intro v hv
  have := h v (List.mem_range.1 hv)
  simp only [Function.comp]; omega

/-- the state of `evaluate` after the contractions `pre`, which took the blocks `bs` -/
structure EInv (o : OSI) (ops : OperatorProduct) (T0 : List Tensor) (pre : List EContr) (bs : List Block) (st : EvalSt) : Prop where
  offLen : st.off.length = ops.length
  off : ∀ v < ops.length, ∀ s < o.spaces.length, (gmAt st.off v).cre s = takenCre pre v s ∧ (gmAt st.off v).ann s = takenAnn pre v s
  order : OInv (slots o.spaces.length ops) (bs.flatMap Block.flat) st.order
  pos : st.pos = ((bs.flatMap Block.flat).length : Int)
  ncontr : st.ncontr = ((bs.flatMap Block.flat).length : Int)
  usign : st.usign = (bs.map (bSign o (slots o.spaces.length ops))).prod
  map : st.map = (bs.flatMap (bPairs o)).foldl (fun m p => SMap.insert (slotIdx (slots o.spaces.length ops) p.1)
    (slotIdx (slots o.spaces.length ops) p.2) m) []
  tensors : st.tensors = T0 ++ bs.flatMap (bTensors o (slots o.spaces.length ops) (slotIdx (slots o.spaces.length ops)))

theorem rd_map_cons {x : Slot} {xs : List Slot} {L : List Slot} : rd ((x :: xs).map (posZ L)) 0 = .ok (posZ L x) := by
  simp [rd]

theorem sqIndex_ok {L : List Slot} {I : Slot → Index} {x : Slot} (hx : x ∈ L) :
    sqIndex (L.map (fun x => ⟨x.type, I x⟩)) (posZ L x) = .ok (I x) := by
  unfold sqIndex posZ
  have := List.idxOf_lt_length_of_mem hx
  rw [if_pos (by omega)]
  simp [this]

theorem sqIndex_mapM {L : List Slot} {I : Slot → Index} {xs : List Slot} (h : ∀ x ∈ xs, x ∈ L) :
    (xs.map (posZ L)).mapM (m := Except Fault) (sqIndex (L.map (fun x => ⟨x.type, I x⟩))) = .ok (xs.map I) := by
  rw [mapM_ok_iff, List.forall₂_map_left_iff, List.forall₂_map_right_iff, List.forall₂_same]
  intro x hx; exact sqIndex_ok (h x hx)

theorem spaceType_lt {o : OSI} {s : Nat} (h : s < o.spaces.length) : ∃ t, o.spaceType s = .ok t := by
  unfold OSI.spaceType OSI.space
  simp [h, bind, Except.bind, pure, Except.pure]

theorem takenCre_append (pre cs : List EContr) (v s : Nat) : takenCre (pre ++ cs) v s = takenCre pre v s + takenCre cs v s := by
  simp [takenCre]
theorem takenAnn_append (pre cs : List EContr) (v s : Nat) : takenAnn (pre ++ cs) v s = takenAnn pre v s + takenAnn cs v s := by
  simp [takenAnn]

theorem mem_blkCre {n s : Nat} {pre : List EContr} {e : EContr} {x : Slot} :
    x ∈ blkCre n s pre e ↔ x.op < n ∧ x.space = s ∧ x.cre = true ∧ (takenCre pre x.op s).toNat ≤ x.k ∧
      x.k < (takenCre pre x.op s).toNat + ((gmAt e x.op).cre s).toNat := by
  unfold blkCre
  simp only [List.mem_flatMap, List.mem_range, List.mem_map]
  constructor
  · rintro ⟨v, hv, i, hi, rfl⟩
    exact ⟨hv, rfl, rfl, by simp, by simp only; omega⟩
  · rintro ⟨h1, rfl, h3, h4, h5⟩
    refine ⟨x.op, h1, x.k - (takenCre pre x.op x.space).toNat, by omega, ?_⟩
    cases x; simp_all

theorem mem_blkAnn {n s : Nat} {pre : List EContr} {e : EContr} {x : Slot} :
    x ∈ blkAnn n s pre e ↔ x.op < n ∧ x.space = s ∧ x.cre = false ∧ (takenAnn pre x.op s).toNat ≤ x.k ∧
      x.k < (takenAnn pre x.op s).toNat + ((gmAt e x.op).ann s).toNat := by
  unfold blkAnn
  simp only [List.mem_flatMap, List.mem_range, List.mem_map]
  constructor
  · rintro ⟨v, hv, i, hi, rfl⟩
    exact ⟨hv, rfl, rfl, by simp, by simp only; omega⟩
  · rintro ⟨h1, rfl, h3, h4, h5⟩
    refine ⟨x.op, h1, x.k - (takenAnn pre x.op x.space).toNat, by omega, ?_⟩
    cases x; simp_all

theorem nodup_blkCre (n s : Nat) (pre : List EContr) (e : EContr) : (blkCre n s pre e).Nodup := by
  unfold blkCre
  rw [List.nodup_flatMap]
  constructor
  · intro v _
    apply List.Nodup.map _ List.nodup_range
    intro k k' h; injection h; omega
  · apply List.Pairwise.imp _ (List.nodup_range (n := n))
    intro v v' hne x hx hx'
    simp only [List.mem_map] at hx hx'
    obtain ⟨k, _, rfl⟩ := hx
    obtain ⟨k', _, h⟩ := hx'
    injection h with h2
    exact hne h2.symm

theorem nodup_blkAnn (n s : Nat) (pre : List EContr) (e : EContr) : (blkAnn n s pre e).Nodup := by
  unfold blkAnn
  rw [List.nodup_flatMap]
  constructor
  · intro v _
    apply List.Nodup.map _ List.nodup_range
    intro k k' h; injection h; omega
  · apply List.Pairwise.imp _ (List.nodup_range (n := n))
    intro v v' hne x hx hx'
    simp only [List.mem_map] at hx hx'
    obtain ⟨k, _, rfl⟩ := hx
    obtain ⟨k', _, h⟩ := hx'
    injection h with h2
    exact hne h2.symm

/-- the contractions of `cs` are non-negative -/
def NonNeg (n : Nat) (cs : List EContr) : Prop := ∀ e ∈ cs, ∀ v < n, ∀ s, 0 ≤ (gmAt e v).cre s ∧ 0 ≤ (gmAt e v).ann s

theorem takenCre_nonneg {n : Nat} {cs : List EContr} (h : NonNeg n cs) {v : Nat} (hv : v < n) (s : Nat) : 0 ≤ takenCre cs v s := by
  apply List.sum_nonneg
  intro x hx
  obtain ⟨e, he, rfl⟩ := List.mem_map.1 hx
  exact (h e he v hv s).1
theorem takenAnn_nonneg {n : Nat} {cs : List EContr} (h : NonNeg n cs) {v : Nat} (hv : v < n) (s : Nat) : 0 ≤ takenAnn cs v s := by
  apply List.sum_nonneg
  intro x hx
  obtain ⟨e, he, rfl⟩ := List.mem_map.1 hx
  exact (h e he v hv s).2

theorem evaluable_nonneg {o : OSI} {n : Nat} {e : EContr} (h : Evaluable o n e) :
    ∀ v < n, ∀ s, 0 ≤ (gmAt e v).cre s ∧ 0 ≤ (gmAt e v).ann s := by
  obtain ⟨s0, c, a, k, _, hL, hnn, _⟩ := h
  intro v hv s
  rw [(hL.2 v hv s).1, (hL.2 v hv s).2]
  have := hnn v hv
  split <;> omega

/-- a slot taken by one of the contractions `cs` after `pre` -/
theorem mem_blocks {o : OSI} {n : Nat} : ∀ (cs pre : List EContr), (∀ e ∈ cs, Evaluable o n e) → NonNeg n pre →
    ∀ x : Slot, x ∈ (blocksFrom o.spaces.length n pre cs).flatMap Block.flat ↔
      x.op < n ∧ x.space < o.spaces.length ∧
      (if x.cre then (takenCre pre x.op x.space ≤ x.k ∧ (x.k : Int) < takenCre (pre ++ cs) x.op x.space)
       else (takenAnn pre x.op x.space ≤ x.k ∧ (x.k : Int) < takenAnn (pre ++ cs) x.op x.space)) := by
  intro cs
  induction cs with
  | nil =>
    intro pre _ _ x
    simp only [blocksFrom, List.flatMap_nil, List.append_nil, List.not_mem_nil, false_iff]
    rintro ⟨_, _, h⟩
    split at h <;> omega
  | cons e cs ih =>
    intro pre he hp x
    have hev := he e (by simp)
    have hnn := evaluable_nonneg hev
    have hp' : NonNeg n (pre ++ [e]) := by
      intro e' he' v hv s
      rcases List.mem_append.1 he' with h | h
      · exact hp e' h v hv s
      · simp only [List.mem_singleton] at h; subst h; exact hnn v hv s
    rw [blocksFrom, List.flatMap_cons, List.mem_append, ih (pre ++ [e]) (fun e' h => he e' (by simp [h])) hp' x]
    obtain ⟨s0, c, a, k, hs0, hL, hcn, hc, ha, hk, _⟩ := hev
    have hsp := (legs_spaces hs0 hL hcn (by omega)).2
    rw [hsp]
    simp only [Block.flat, List.mem_append, mem_blkCre, mem_blkAnn]
    by_cases hx : x.op < n
    · have t1 := takenCre_nonneg hp hx x.space
      have t2 := takenAnn_nonneg hp hx x.space
      have n1 := hnn x.op hx x.space
      have L1 := hL.2 x.op hx x.space
      have q1 : takenCre (pre ++ [e]) x.op x.space = takenCre pre x.op x.space + (gmAt e x.op).cre x.space := by
        simp [takenCre]
      have q2 : takenAnn (pre ++ [e]) x.op x.space = takenAnn pre x.op x.space + (gmAt e x.op).ann x.space := by
        simp [takenAnn]
      have q3 : pre ++ [e] ++ cs = pre ++ e :: cs := by simp
      have c1 : 0 ≤ takenCre cs x.op x.space := takenCre_nonneg (fun e' h => evaluable_nonneg (he e' (by simp [h]))) hx _
      have c2 : 0 ≤ takenAnn cs x.op x.space := takenAnn_nonneg (fun e' h => evaluable_nonneg (he e' (by simp [h]))) hx _
      have q4 : takenCre (pre ++ e :: cs) x.op x.space = takenCre (pre ++ [e]) x.op x.space + takenCre cs x.op x.space := by
        rw [← q3, takenCre_append]
      have q5 : takenAnn (pre ++ e :: cs) x.op x.space = takenAnn (pre ++ [e]) x.op x.space + takenAnn cs x.op x.space := by
        rw [← q3, takenAnn_append]
      rw [q3, q4, q5, q1, q2]
      by_cases hxs : x.space = s0
      · subst hxs
        cases x.cre <;> simp [hx, hs0] <;> omega
      · rw [if_neg hxs, if_neg hxs] at L1
        rw [L1.1, L1.2]
        cases x.cre <;> simp [hx, hxs]
    · simp [hx]

theorem nodup_blocks {o : OSI} {n : Nat} : ∀ (cs pre : List EContr), (∀ e ∈ cs, Evaluable o n e) → NonNeg n pre →
    ((blocksFrom o.spaces.length n pre cs).flatMap Block.flat).Nodup := by
  intro cs
  induction cs with
  | nil => intro pre _ _; simp [blocksFrom]
  | cons e cs ih =>
    intro pre he hp
    have hev := he e (by simp)
    have hnn := evaluable_nonneg hev
    have hp' : NonNeg n (pre ++ [e]) := by
      intro e' he' v hv s
      rcases List.mem_append.1 he' with h | h
      · exact hp e' h v hv s
      · simp only [List.mem_singleton] at h; subst h; exact hnn v hv s
    rw [blocksFrom, List.flatMap_cons, List.nodup_append]
    refine ⟨?_, ih _ (fun e' h => he e' (by simp [h])) hp', ?_⟩
    · unfold Block.flat
      rw [List.nodup_append]
      refine ⟨nodup_blkCre _ _ _ _, nodup_blkAnn _ _ _ _, ?_⟩
      rintro x hx y hy rfl
      rw [mem_blkCre] at hx
      rw [mem_blkAnn] at hy
      rw [hx.2.2.1] at hy; cases hy.2.2.1
    · rintro x hx y hy rfl
      rw [mem_blocks cs _ (fun e' h => he e' (by simp [h])) hp'] at hy
      obtain ⟨h1, h2, h3⟩ := hy
      have t1 := takenCre_nonneg hp h1 x.space
      have t2 := takenAnn_nonneg hp h1 x.space
      have n1 := hnn x.op h1 x.space
      have q1 : takenCre (pre ++ [e]) x.op x.space = takenCre pre x.op x.space + (gmAt e x.op).cre x.space := by
        simp [takenCre]
      have q2 : takenAnn (pre ++ [e]) x.op x.space = takenAnn pre x.op x.space + (gmAt e x.op).ann x.space := by
        simp [takenAnn]
      rcases List.mem_append.1 hx with hx | hx
      · obtain ⟨_, hs, hc, _, h5⟩ := mem_blkCre.1 hx
        rw [if_pos hc, q1] at h3
        rw [← hs] at h5
        omega
      · obtain ⟨_, hs, hc, _, h5⟩ := mem_blkAnn.1 hx
        rw [if_neg (by rw [hc]; simp), q2] at h3
        rw [← hs] at h5
        omega

theorem evalStep_ok {o : OSI} {ops : OperatorProduct} {T0 : List Tensor} {om : OpMap} (h8 : o.spaces.length ≤ 8)
    (hom : MapsTo (slots o.spaces.length ops) om) {pre cs : List EContr} {e : EContr} {bs : List Block} {st : EvalSt}
    (h : EInv o ops T0 pre bs st) (hbs : bs = blocksFrom o.spaces.length ops.length [] pre)
    (hpre : ∀ e ∈ pre, Evaluable o ops.length e) (hev : Evaluable o ops.length e)
    (hav : ∀ v < ops.length, ∀ s < o.spaces.length, takenCre (pre ++ [e]) v s ≤ (opAt ops v).gm.cre s ∧
      takenAnn (pre ++ [e]) v s ≤ (opAt ops v).gm.ann s) :
    ∃ st', evalStep o ((slots o.spaces.length ops).map (fun x => ⟨x.type, slotIdx (slots o.spaces.length ops) x⟩)) om st e = .ok st' ∧
      EInv o ops T0 (pre ++ [e]) (bs ++ [⟨espace o.spaces.length e, blkCre ops.length (espace o.spaces.length e) pre e,
        blkAnn ops.length (espace o.spaces.length e) pre e⟩]) st' := by
  have hL := nodup_slots o.spaces.length ops
  have hnn := evaluable_nonneg hev
  have hpn : NonNeg ops.length pre := fun e' h' => evaluable_nonneg (hpre e' h')
  have hev' := hev
  obtain ⟨s, c, a, k, hs, hLg, hcn, hc, ha, hk, hk1⟩ := hev
  obtain ⟨hsp0, hsp⟩ := legs_spaces hs hLg hcn (by omega)
  rw [hsp]
  have q1 : ∀ v s, takenCre (pre ++ [e]) v s = takenCre pre v s + (gmAt e v).cre s := by intro v s; simp [takenCre]
  have q2 : ∀ v s, takenAnn (pre ++ [e]) v s = takenAnn pre v s + (gmAt e v).ann s := by intro v s; simp [takenAnn]
  -- positions of the creation operators
  have inC : ∀ x ∈ blkCre ops.length s pre e, x ∈ slots o.spaces.length ops := by
    intro x hx
    rw [mem_blkCre] at hx
    rw [mem_slots]
    obtain ⟨h1, rfl, h3, h4, h5⟩ := hx
    refine ⟨h1, hs, ?_⟩
    rw [if_pos h3]
    have := (hav x.op h1 x.space hs).1
    rw [q1] at this
    have n1 := hnn x.op h1 x.space
    have := takenCre_nonneg hpn h1 x.space
    omega
  have inA : ∀ x ∈ blkAnn ops.length s pre e, x ∈ slots o.spaces.length ops := by
    intro x hx
    rw [mem_blkAnn] at hx
    rw [mem_slots]
    obtain ⟨h1, rfl, h3, h4, h5⟩ := hx
    refine ⟨h1, hs, ?_⟩
    rw [if_neg (by rw [h3]; simp)]
    have := (hav x.op h1 x.space hs).2
    rw [q2] at this
    have n1 := hnn x.op h1 x.space
    have := takenAnn_nonneg hpn h1 x.space
    omega
  obtain ⟨off1, e1, l1, a1⟩ := elementsToPos_ok (cr := true) hL hom hsp0 hLg.1 h.offLen
    (by intro v hv; simp only [if_true]; rw [(h.off v hv s hs).1]; exact takenCre_nonneg hpn hv s)
    (by
      intro v hv i hi
      simp only [if_true] at hi ⊢
      apply inC
      rw [mem_blkCre]
      refine ⟨hv, rfl, rfl, ?_, ?_⟩ <;> simp only <;> rw [(h.off v hv s hs).1] <;> omega)
  simp only [if_true] at e1 a1
  have off1v : ∀ v < ops.length, (gmAt off1 v).ann s = takenAnn pre v s := by
    intro v hv
    rw [a1 v hv, GraphMatrix.ann_setCre]; exact (h.off v hv s hs).2
  obtain ⟨off2, e2, l2, a2⟩ := elementsToPos_ok (cr := false) hL hom hsp0 hLg.1 l1
    (by intro v hv; simp only [Bool.false_eq_true, if_false]; rw [off1v v hv]; exact takenAnn_nonneg hpn hv s)
    (by
      intro v hv i hi
      simp only [Bool.false_eq_true, if_false] at hi ⊢
      apply inA
      rw [mem_blkAnn]
      refine ⟨hv, rfl, rfl, ?_, ?_⟩ <;> simp only <;> rw [off1v v hv] <;> omega)
  simp only [Bool.false_eq_true, if_false] at e2 a2
  have lc : (List.range ops.length).flatMap (fun v =>
        (List.range ((gmAt e v).cre s).toNat).map (fun i => (⟨v, s, true, ((gmAt st.off v).cre s).toNat + i⟩ : Slot))) = blkCre ops.length s pre e := by
    unfold blkCre
    apply List.flatMap_congr
    intro v hv
    rw [(h.off v (List.mem_range.1 hv) s hs).1]
  have la : (List.range ops.length).flatMap (fun v =>
        (List.range ((gmAt e v).ann s).toNat).map (fun i => (⟨v, s, false, ((gmAt off1 v).ann s).toNat + i⟩ : Slot))) = blkAnn ops.length s pre e := by
    unfold blkAnn
    apply List.flatMap_congr
    intro v hv
    rw [off1v v (List.mem_range.1 hv)]
  rw [lc] at e1
  rw [la] at e2
  -- marking
  have hnd := nodup_blocks (o := o) (n := ops.length) (pre ++ [e]) [] (by
    intro e' h'
    rcases List.mem_append.1 h' with h' | h'
    · exact hpre e' h'
    · simp only [List.mem_singleton] at h'; subst h'; exact hev') (by intro e' h'; cases h')
  have happ : ∀ (cs pre : List EContr) (e : EContr), blocksFrom o.spaces.length ops.length pre (cs ++ [e]) =
      blocksFrom o.spaces.length ops.length pre cs ++ [⟨espace o.spaces.length e, blkCre ops.length (espace o.spaces.length e) (pre ++ cs) e,
        blkAnn ops.length (espace o.spaces.length e) (pre ++ cs) e⟩] := by
    intro cs
    induction cs with
    | nil => intro pre e; simp [blocksFrom]
    | cons e' cs ih => intro pre e; simp [blocksFrom, ih]
  rw [happ, List.nil_append, ← hbs, hsp, List.flatMap_append] at hnd
  simp only [List.flatMap_cons, List.flatMap_nil, List.append_nil, Block.flat] at hnd
  rw [← List.append_assoc] at hnd
  obtain ⟨o1, m1, i1⟩ := markAll_ok hL (blkCre ops.length s pre e) _ st.order h.order inC (List.nodup_append.1 hnd).1
  obtain ⟨o2, m2, i2⟩ := markAll_ok hL (blkAnn ops.length s pre e) _ o1 i1 inA hnd
  have hlc : ((blkCre ops.length s pre e).length : Int) = k := by
    rw [length_blkCre _ _ _ _ (fun v hv => (hnn v hv s).1), ← hc]
    congr 1; apply List.map_congr_left; intro v hv
    rw [(hLg.2 v (List.mem_range.1 hv) s).1, if_pos rfl]
  have hla : ((blkAnn ops.length s pre e).length : Int) = k := by
    rw [length_blkAnn _ _ _ _ (fun v hv => (hnn v hv s).2), ← ha]
    congr 1; apply List.map_congr_left; intro v hv
    rw [(hLg.2 v (List.mem_range.1 hv) s).2, if_pos rfl]
  have hrank : e.numOps = 2 * k := by rw [legs_numOps (by omega) hLg, hc, ha]; omega
  have offNew : ∀ v < ops.length, ∀ t < o.spaces.length, (gmAt off2 v).cre t = takenCre (pre ++ [e]) v t ∧
      (gmAt off2 v).ann t = takenAnn (pre ++ [e]) v t := by
    intro v hv t ht
    rw [a2 v hv, GraphMatrix.cre_setAnn, GraphMatrix.ann_setAnn _ _ _ _ (by omega), a1 v hv,
      GraphMatrix.cre_setCre _ _ _ _ (by omega), GraphMatrix.ann_setCre, GraphMatrix.ann_setCre, q1, q2,
      (h.off v hv t ht).1, (h.off v hv t ht).2, (h.off v hv s hs).1, (h.off v hv s hs).2]
    constructor
    · by_cases hts : t = s
      · rw [if_pos hts, hts]
      · rw [if_neg hts, (hLg.2 v hv t).1, if_neg hts, add_zero]
    · by_cases hts : t = s
      · rw [if_pos hts, hts]
      · rw [if_neg hts, (hLg.2 v hv t).2, if_neg hts, add_zero]
  have hflat : (bs ++ [(⟨s, blkCre ops.length s pre e, blkAnn ops.length s pre e⟩ : Block)]).flatMap Block.flat =
      bs.flatMap Block.flat ++ blkCre ops.length s pre e ++ blkAnn ops.length s pre e := by
    simp [Block.flat]
  have hM : ∃ B : Block, B = ⟨s, blkCre ops.length s pre e, blkAnn ops.length s pre e⟩ := ⟨_, rfl⟩
  obtain ⟨B, hB⟩ := hM
  have ncontr' : st.ncontr + e.numOps = (((bs ++ [B]).flatMap Block.flat).length : Int) := by
    rw [hB, hflat, h.ncontr, hrank, List.length_append, List.length_append]; push_cast; omega
  have base : ∀ us mp ts, us = ((bs ++ [B]).map (bSign o (slots o.spaces.length ops))).prod →
      mp = ((bs ++ [B]).flatMap (bPairs o)).foldl (fun m p => SMap.insert (slotIdx (slots o.spaces.length ops) p.1)
        (slotIdx (slots o.spaces.length ops) p.2) m) [] →
      ts = T0 ++ (bs ++ [B]).flatMap (bTensors o (slots o.spaces.length ops) (slotIdx (slots o.spaces.length ops))) →
      EInv o ops T0 (pre ++ [e]) (bs ++ [B]) ⟨off2, (((bs ++ [B]).flatMap Block.flat).length : Int), st.ncontr + e.numOps, us, mp, o2, ts⟩ := by
    intro us mp ts h1 h2 h3
    refine ⟨l2, offNew, ?_, rfl, ncontr', h1, h2, h3⟩
    rw [hB, hflat]; exact i2
  rw [← hB]
  unfold evalStep
  simp only [hsp0, e1, e2, bind, Except.bind]
  rw [h.pos, m1]
  simp only
  rw [m2]
  simp only
  obtain ⟨t, ht⟩ := spaceType_lt hs
  rw [ht]
  have hposeq : (((bs.flatMap Block.flat ++ blkCre ops.length s pre e ++ blkAnn ops.length s pre e).length : Nat) : Int) =
      (((bs ++ [B]).flatMap Block.flat).length : Int) := by rw [hB, hflat]
  rw [hposeq]
  have ne1 : ∃ x xs, blkCre ops.length s pre e = x :: xs := by
    cases hx : blkCre ops.length s pre e with
    | nil => rw [hx] at hlc; simp at hlc; omega
    | cons x xs => exact ⟨x, xs, rfl⟩
  have ne2 : ∃ y ys, blkAnn ops.length s pre e = y :: ys := by
    cases hx : blkAnn ops.length s pre e with
    | nil => rw [hx] at hla; simp at hla; omega
    | cons x xs => exact ⟨x, xs, rfl⟩
  obtain ⟨x, xs, hx⟩ := ne1
  obtain ⟨y, ys, hy⟩ := ne2
  have ix := sqIndex_ok (I := slotIdx (slots o.spaces.length ops)) (inC x (by rw [hx]; simp))
  have iy := sqIndex_ok (I := slotIdx (slots o.spaces.length ops)) (inA y (by rw [hy]; simp))
  have rx : rd ((blkCre ops.length s pre e).map (posZ (slots o.spaces.length ops))) 0 = .ok (posZ (slots o.spaces.length ops) x) := by
    rw [hx]; exact rd_map_cons
  have ry : rd ((blkAnn ops.length s pre e).map (posZ (slots o.spaces.length ops))) 0 = .ok (posZ (slots o.spaces.length ops) y) := by
    rw [hy]; exact rd_map_cons
  cases t with
  | occupied =>
    simp only [rx, ry, ix, iy, pure, Except.pure]
    refine ⟨_, rfl, base _ _ _ ?_ ?_ ?_⟩
    · rw [List.map_append, List.prod_append, ← h.usign]; simp [bSign, hB, ht]
    · rw [List.flatMap_append, List.foldl_append, ← h.map]; simp [bPairs, hB, ht, hx, hy]
    · rw [List.flatMap_append, ← List.append_assoc, ← h.tensors]; simp [bTensors, hB, ht]
  | unoccupied =>
    simp only [rx, ry, ix, iy, pure, Except.pure]
    refine ⟨_, rfl, base _ _ _ ?_ ?_ ?_⟩
    · rw [List.map_append, List.prod_append, ← h.usign]; simp [bSign, hB, ht]
    · rw [List.flatMap_append, List.foldl_append, ← h.map]; simp [bPairs, hB, ht, hx, hy]
    · rw [List.flatMap_append, ← List.append_assoc, ← h.tensors]; simp [bTensors, hB, ht]
  | general =>
    have sx := sqIndex_mapM (I := slotIdx (slots o.spaces.length ops)) inC
    have sy := sqIndex_mapM (I := slotIdx (slots o.spaces.length ops)) inA
    simp only [sx, sy, rx, ry, pure, Except.pure]
    by_cases hr : e.numOps = 2
    · have hk' : k = 1 := by omega
      have hlen2 : (blkCre ops.length s pre e).length + (blkAnn ops.length s pre e).length = 2 := by omega
      rw [if_pos hr]
      by_cases hlt : posZ (slots o.spaces.length ops) x < posZ (slots o.spaces.length ops) y
      · rw [if_pos hlt]
        refine ⟨_, rfl, base _ _ _ ?_ ?_ ?_⟩
        · rw [List.map_append, List.prod_append, ← h.usign]; simp [bSign, hB, ht, hlen2, hx, hy, hlt]
        · rw [List.flatMap_append, List.foldl_append, ← h.map]; simp [bPairs, hB, ht]
        · rw [List.flatMap_append, ← List.append_assoc, ← h.tensors]
          rw [hx, hy] at hlen2
          simp [bTensors, hB, ht, hx, hy, hlt]
          simp at hlen2; omega
      · rw [if_neg hlt]
        refine ⟨_, rfl, base _ _ _ ?_ ?_ ?_⟩
        · rw [List.map_append, List.prod_append, ← h.usign]
          rw [hx, hy] at hlen2
          simp [bSign, hB, ht, hx, hy, hlt]
          intro hne; simp at hlen2; omega
        · rw [List.flatMap_append, List.foldl_append, ← h.map]; simp [bPairs, hB, ht]
        · rw [List.flatMap_append, ← List.append_assoc, ← h.tensors]
          rw [hx, hy] at hlen2
          simp [bTensors, hB, ht, hx, hy, hlt]
          simp at hlen2; omega
    · rw [if_neg hr]
      have hlen2 : ¬ ((blkCre ops.length s pre e).length + (blkAnn ops.length s pre e).length = 2) := by omega
      refine ⟨_, rfl, base _ _ _ ?_ ?_ ?_⟩
      · rw [List.map_append, List.prod_append, ← h.usign]; simp [bSign, hB, ht, hlen2]
      · rw [List.flatMap_append, List.foldl_append, ← h.map]; simp [bPairs, hB, ht]
      · rw [List.flatMap_append, ← List.append_assoc, ← h.tensors]
        have : e.numOps.tdiv 2 = ((blkCre ops.length s pre e).length : Int) := by rw [hrank, hlc, Int.mul_tdiv_cancel_left _ (by norm_num)]
        simp [bTensors, hB, ht, hlen2, this]

end Wick
end Wicked
