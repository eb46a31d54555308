import Verif.Proofs.WickContract
import Verif.Spec.Slots
/-! `contraction_tensors_sqops`: the layout of indices and operators -/
namespace Wicked
open CppLt CppEq

namespace Slot
/-- the key under which the code files a slot in `op_map` -/
def key (x : Slot) : Wick.OpKey := ((x.op : Int), (x.space : Int), x.cre, (x.k : Int))

theorem key_inj {x y : Slot} (h : x.key = y.key) : x = y := by
  cases x; cases y
  simp only [key, Prod.mk.injEq, Nat.cast_inj] at h
  obtain ⟨h1, h2, h3, h4⟩ := h
  subst h1 h2 h3 h4; rfl
end Slot

theorem mem_creSlots {ns o : Nat} {p : Operator} {x : Slot} :
    x ∈ creSlots ns o p ↔ x.op = o ∧ x.space < ns ∧ x.cre = true ∧ (x.k : Int) < p.gm.cre x.space := by
  unfold creSlots
  simp only [List.mem_flatMap, List.mem_range, List.mem_map]
  constructor
  · rintro ⟨s, hs, k, hk, rfl⟩
    exact ⟨rfl, hs, rfl, by simp only; omega⟩
  · rintro ⟨rfl, h2, h3, h4⟩
    refine ⟨x.space, h2, x.k, by omega, ?_⟩
    cases x; simp_all

theorem mem_annSlots {ns o : Nat} {p : Operator} {x : Slot} :
    x ∈ annSlots ns o p ↔ x.op = o ∧ x.space < ns ∧ x.cre = false ∧ (x.k : Int) < p.gm.ann x.space := by
  unfold annSlots
  simp only [List.mem_flatMap, List.mem_range, List.mem_map]
  constructor
  · rintro ⟨s, hs, k, hk, rfl⟩
    exact ⟨rfl, hs, rfl, by simp only; omega⟩
  · rintro ⟨rfl, h2, h3, h4⟩
    refine ⟨x.space, h2, x.k, by omega, ?_⟩
    cases x; simp_all

theorem mem_opSlots {ns o : Nat} {p : Operator} {x : Slot} :
    x ∈ opSlots ns o p ↔ x.op = o ∧ x.space < ns ∧
      (x.k : Int) < (if x.cre then p.gm.cre x.space else p.gm.ann x.space) := by
  unfold opSlots
  rw [List.mem_append, List.mem_reverse, mem_creSlots, mem_annSlots]
  cases x.cre <;> simp

theorem mem_slotsFrom {ns : Nat} {ops : OperatorProduct} : ∀ {o : Nat} {x : Slot},
    x ∈ slotsFrom ns o ops ↔ o ≤ x.op ∧ x.op < o + ops.length ∧ x.space < ns ∧
      (x.k : Int) < (if x.cre then (opAt ops (x.op - o)).gm.cre x.space else (opAt ops (x.op - o)).gm.ann x.space) := by
  induction ops with
  | nil => intro o x; simp [slotsFrom]; omega
  | cons p ops ih =>
    intro o x
    simp only [slotsFrom, List.mem_append, mem_opSlots, ih, List.length_cons]
    constructor
    · rintro (⟨h1, h2, h3⟩ | ⟨h1, h2, h3, h4⟩)
      · refine ⟨by omega, by omega, h2, ?_⟩
        have : x.op - o = 0 := by omega
        rw [this]; exact h3
      · refine ⟨by omega, by omega, h3, ?_⟩
        obtain ⟨d, hd⟩ : ∃ d, x.op - o = d + 1 := ⟨x.op - o - 1, by omega⟩
        have e : x.op - (o + 1) = d := by omega
        rw [e] at h4
        rw [hd]; exact h4
    · rintro ⟨h1, h2, h3, h4⟩
      by_cases he : x.op = o
      · left
        refine ⟨he, h3, ?_⟩
        have : x.op - o = 0 := by omega
        rw [this] at h4; exact h4
      · right
        obtain ⟨d, hd⟩ : ∃ d, x.op - o = d + 1 := ⟨x.op - o - 1, by omega⟩
        have e : x.op - (o + 1) = d := by omega
        refine ⟨by omega, by omega, h3, ?_⟩
        rw [e]
        rw [hd] at h4; exact h4

theorem mem_slots {ns : Nat} {ops : OperatorProduct} {x : Slot} :
    x ∈ slots ns ops ↔ x.op < ops.length ∧ x.space < ns ∧
      (x.k : Int) < (if x.cre then (opAt ops x.op).gm.cre x.space else (opAt ops x.op).gm.ann x.space) := by
  unfold slots
  rw [mem_slotsFrom]; simp

theorem nodup_flat_slots (ns : Nat) (o : Nat) (b : Bool) (n : Nat → Nat) :
    ((List.range ns).flatMap (fun s => (List.range (n s)).map (fun k => (⟨o, s, b, k⟩ : Slot)))).Nodup := by
  rw [List.nodup_flatMap]
  constructor
  · intro s _
    apply List.Nodup.map _ List.nodup_range
    intro k k' h; injection h
  · apply List.Pairwise.imp _ (List.nodup_range (n := ns))
    intro s s' hne x hx hx'
    simp only [List.mem_map] at hx hx'
    obtain ⟨k, _, rfl⟩ := hx
    obtain ⟨k', _, h⟩ := hx'
    injection h with _ h2
    exact hne h2.symm

theorem nodup_opSlots (ns o : Nat) (p : Operator) : (opSlots ns o p).Nodup := by
  unfold opSlots
  rw [List.nodup_append]
  refine ⟨nodup_flat_slots _ _ _ _, List.nodup_reverse.2 (nodup_flat_slots _ _ _ _), ?_⟩
  rintro x hx y hy rfl
  rw [List.mem_reverse, mem_annSlots] at hy
  rw [mem_creSlots] at hx
  rw [hx.2.2.1] at hy; cases hy.2.2.1

theorem nodup_slotsFrom (ns : Nat) (ops : OperatorProduct) : ∀ o, (slotsFrom ns o ops).Nodup := by
  induction ops with
  | nil => intro o; exact List.nodup_nil
  | cons p ops ih =>
    intro o
    unfold slotsFrom
    rw [List.nodup_append]
    refine ⟨nodup_opSlots _ _ _, ih _, ?_⟩
    rintro x hx y hy rfl
    rw [mem_opSlots] at hx
    rw [mem_slotsFrom] at hy
    omega

theorem nodup_slots (ns : Nat) (ops : OperatorProduct) : (slots ns ops).Nodup := nodup_slotsFrom ns ops 0

/-! ### index numbers -/

/-- the indices the code gives to the slots `l` when the slots `pre` come before -/
def idxList (pre : List Slot) : List Slot → List Index
  | [] => []
  | x :: l => ⟨x.space, ((pre.filter (fun y => decide (y.space = x.space))).length : Int)⟩ :: idxList (pre ++ [x]) l

theorem idxList_append (l m : List Slot) : ∀ pre, idxList pre (l ++ m) = idxList pre l ++ idxList (pre ++ l) m := by
  induction l with
  | nil => intro pre; simp [idxList]
  | cons x l ih => intro pre; simp [idxList, ih]

theorem length_idxList (l : List Slot) : ∀ pre, (idxList pre l).length = l.length := by
  induction l with
  | nil => intro pre; rfl
  | cons x l ih => intro pre; simp [idxList, ih]

/-- the operators the code writes for the slots `l` -/
def sqList (pre l : List Slot) : List SQOp := List.zipWith (fun x i => ⟨x.type, i⟩) l (idxList pre l)

theorem sqList_append (pre l m : List Slot) : sqList pre (l ++ m) = sqList pre l ++ sqList (pre ++ l) m := by
  unfold sqList
  rw [idxList_append, List.zipWith_append (by rw [length_idxList])]

theorem length_sqList (pre l : List Slot) : (sqList pre l).length = l.length := by
  unfold sqList; simp [length_idxList]

namespace Wick

/-- the state of the layout after the slots `L` -/
structure LInv (ns : Nat) (L : List Slot) (st : Layout) : Prop where
  icLen : st.ic.length = ns
  ic : ∀ s < ns, st.ic.getD s 0 = ((L.filter (fun y => decide (y.space = s))).length : Int)
  sq : st.sqops = sqList [] L
  srt : SMap.Srt st.opMap
  find : ∀ key p, SMap.find key st.opMap = some p ↔ ∃ q : Nat, p = q ∧ ∃ x, L[q]? = some x ∧ x.key = key

def layS (x : Slot) (st : Layout) : Res Layout := layStep x.op x.space x.type x.k st

theorem layS_ok {ns : Nat} {L : List Slot} {st : Layout} (h : LInv ns L st) {x : Slot} (hx : x.space < ns) (hn : x ∉ L) :
    ∃ st', layS x st = .ok st' ∧ LInv ns (L ++ [x]) st' ∧ st'.idx = st.idx ++ idxList L [x] := by
  have hinc : incr st.ic (x.space : Int) = .ok (st.ic.modify x.space (· + 1)) := by
    unfold incr; rw [if_pos ⟨by omega, by simp; rw [h.icLen]; exact hx⟩]; simp
  have hic := h.ic x.space hx
  refine ⟨_, by unfold layS layStep; rw [hinc]; rfl, ?_, ?_⟩
  · refine ⟨by simp [h.icLen], ?_, ?_, ?_, ?_⟩
    · intro s hs
      simp only [List.getD_eq_getElem?_getD, List.getElem?_modify]
      have h1 := h.ic s hs
      rw [List.getD_eq_getElem?_getD] at h1
      have hl : s < st.ic.length := by rw [h.icLen]; exact hs
      rw [List.getElem?_eq_getElem hl] at h1 ⊢
      simp only [Option.getD_some] at h1
      rw [List.filter_append, List.length_append]
      by_cases he : x.space = s
      · subst he
        simp [h1]
      · simp [he, h1]
    · show st.sqops ++ [_] = _
      rw [sqList_append, h.sq]
      congr 1
      simp only [sqList, idxList, List.nil_append, List.zipWith_cons_cons, List.zipWith_nil_left]
      rw [hic]
    · exact SMap.srt_insert h.srt
    · intro key p
      show SMap.find key (SMap.insert _ _ st.opMap) = some p ↔ _
      rw [SMap.find_insert h.srt]
      have hk : (((x.op : Int), (x.space : Int), decide (x.type = SQType.creation), (x.k : Int)) : OpKey) = x.key := by
        unfold Slot.key Slot.type
        cases x.cre <;> simp
      rw [hk]
      have hlen : st.sqops.length = L.length := by rw [h.sq, length_sqList]
      by_cases he : eqv x.key key = true
      · rw [if_pos he]
        rw [eqv_eq] at he
        subst he
        constructor
        · intro hp
          injection hp with hp
          exact ⟨L.length, by rw [← hp, hlen], x, by simp, rfl⟩
        · rintro ⟨q, rfl, y, hy, hyk⟩
          have := Slot.key_inj hyk
          subst this
          rw [List.getElem?_append] at hy
          split at hy
          · exact absurd (List.mem_of_getElem? hy) hn
          · rename_i hq
            have : q = L.length := by
              by_contra hne
              have : q - L.length ≠ 0 := by omega
              obtain ⟨d, hd⟩ : ∃ d, q - L.length = d + 1 := ⟨q - L.length - 1, by omega⟩
              rw [hd] at hy; simp at hy
            rw [this, hlen]
      · rw [if_neg he, h.find]
        constructor
        · rintro ⟨q, rfl, y, hy, hyk⟩
          refine ⟨q, rfl, y, ?_, hyk⟩
          rw [List.getElem?_append_left (List.getElem?_eq_some_iff.1 hy).1]; exact hy
        · rintro ⟨q, rfl, y, hy, hyk⟩
          rw [List.getElem?_append] at hy
          split at hy
          · exact ⟨q, rfl, y, hy, hyk⟩
          · exfalso
            obtain ⟨hlt, hge⟩ := List.getElem?_eq_some_iff.1 hy
            simp at hge
            subst hge; subst hyk
            apply he; rw [eqv_eq]
  · show st.idx ++ [_] = _
    simp only [idxList]
    rw [hic]

theorem laySs_ok {ns : Nat} : ∀ {M L : List Slot} {st : Layout}, LInv ns L st → (∀ x ∈ M, x.space < ns) → (L ++ M).Nodup →
    ∃ st', M.foldlM (fun st x => layS x st) st = .ok st' ∧ LInv ns (L ++ M) st' ∧ st'.idx = st.idx ++ idxList L M := by
  intro M
  induction M with
  | nil => intro L st h _ _; exact ⟨st, rfl, by simpa using h, by simp [idxList]⟩
  | cons x M ih =>
    intro L st h hs hn
    have hx : x ∉ L := by
      intro hx
      have := (List.nodup_append.1 hn).2.2 x hx x (by simp)
      exact this rfl
    obtain ⟨st1, e1, i1, j1⟩ := layS_ok h (hs x (by simp)) hx
    obtain ⟨st2, e2, i2, j2⟩ := ih i1 (fun y hy => hs y (by simp [hy])) (by simpa using hn)
    refine ⟨st2, by rw [List.foldlM_cons, e1]; exact e2, by simpa using i2, ?_⟩
    rw [j2, j1, List.append_assoc, ← idxList_append]; simp

theorem foldlM_flatMap {α β γ : Type} (f : γ → β → Res γ) (g : α → List β) : ∀ (l : List α) (c : γ),
    l.foldlM (fun c a => (g a).foldlM f c) c = (l.flatMap g).foldlM f c := by
  intro l
  induction l with
  | nil => intro c; rfl
  | cons a l ih =>
    intro c
    rw [List.flatMap_cons, List.foldlM_append, List.foldlM_cons]
    simp only [ih]

theorem intRange0 (n : Int) : intRange 0 (n - 1) = (List.range n.toNat).map (fun k : Nat => (k : Int)) := by
  unfold intRange
  have : (n - 1 - 0 + 1).toNat = n.toNat := by congr 1; omega
  rw [this]
  apply List.map_congr_left; intro k _; omega

theorem layOp_ok {ns o : Nat} {p : Operator} {L : List Slot} {st : Layout} (h : LInv ns L st)
    (hn : (L ++ opSlots ns o p).Nodup) :
    ∃ st', layOp ns o p st = .ok (st', ⟨p.label, idxList L (creSlots ns o p),
        (idxList (L ++ creSlots ns o p) (annSlots ns o p).reverse).reverse, .antisymmetric, false⟩) ∧
      LInv ns (L ++ opSlots ns o p) st' := by
  have h0 : LInv ns L { st with idx := [] } := ⟨h.icLen, h.ic, h.sq, h.srt, h.find⟩
  unfold opSlots at hn
  rw [← List.append_assoc] at hn
  have hn1 := (List.nodup_append.1 hn).1
  obtain ⟨st1, e1, i1, j1⟩ := laySs_ok h0 (fun x hx => (mem_creSlots.1 hx).2.1) hn1
  have h2 : LInv ns (L ++ creSlots ns o p) { st1 with idx := [] } := ⟨i1.icLen, i1.ic, i1.sq, i1.srt, i1.find⟩
  obtain ⟨st2, e2, i2, j2⟩ := laySs_ok h2 (fun x hx => (mem_annSlots.1 (List.mem_reverse.1 hx)).2.1) hn
  refine ⟨st2, ?_, by unfold opSlots; rw [← List.append_assoc]; exact i2⟩
  unfold layOp
  have c1 : (List.range ns).foldlM (init := { st with idx := [] }) (fun st s =>
      (intRange 0 (p.gm.cre s - 1)).foldlM (init := st) (fun st c => layStep o s .creation c st)) = .ok st1 := by
    rw [← e1]
    unfold creSlots
    rw [← foldlM_flatMap]
    congr 1
    funext st s
    rw [intRange0, List.foldlM_map, List.foldlM_map]; rfl
  have c2 : (List.range ns).reverse.foldlM (init := { st1 with idx := [] }) (fun st s =>
      (intRange 0 (p.gm.ann s - 1)).reverse.foldlM (init := st) (fun st c => layStep o s .annihilation c st)) = .ok st2 := by
    rw [← e2]
    unfold annSlots
    rw [List.reverse_flatMap, ← foldlM_flatMap]
    congr 1
    funext st s
    simp only [Function.comp]
    rw [intRange0, ← List.map_reverse, ← List.map_reverse, List.foldlM_map, List.foldlM_map]; rfl
  rw [c1]
  simp only [bind, Except.bind]
  rw [c2]
  simp only [pure, Except.pure, j1, j2, List.nil_append]

/-- the tensors written by the layout -/
def layTensors (ns : Nat) (I : Slot → Index) : Nat → OperatorProduct → List Tensor
  | _, [] => []
  | o, p :: ops => ⟨p.label, (creSlots ns o p).map I, (annSlots ns o p).map I, .antisymmetric, false⟩ ::
      layTensors ns I (o + 1) ops

theorem idxList_map (L : List Slot) (I : Slot → Index) (hI : idxList [] L = L.map I) {A B C : List Slot}
    (h : L = A ++ B ++ C) : idxList A B = B.map I := by
  subst h
  rw [List.append_assoc, idxList_append, idxList_append] at hI
  simp only [List.nil_append, List.map_append] at hI
  have h1 := List.append_inj hI (by rw [length_idxList, List.length_map])
  exact (List.append_inj h1.2 (by rw [length_idxList, List.length_map])).1

theorem layOps_ok {ns : Nat} {L0 : List Slot} {I : Slot → Index} (hI : idxList [] L0 = L0.map I) (hn : L0.Nodup) :
    ∀ (ops : OperatorProduct) {o : Nat} {L : List Slot} {st : Layout} (ts : List Tensor), LInv ns L st →
    L ++ slotsFrom ns o ops = L0 →
    ∃ st', layOps ns o ops st ts = .ok (st', ts ++ layTensors ns I o ops) ∧ LInv ns L0 st' := by
  intro ops
  induction ops with
  | nil =>
    intro o L st ts h he
    refine ⟨st, by simp [layOps, layTensors], ?_⟩
    rw [← he]; simpa [slotsFrom] using h
  | cons p ops ih =>
    intro o L st ts h he
    unfold slotsFrom at he
    rw [← List.append_assoc] at he
    obtain ⟨st1, e1, i1⟩ := layOp_ok (o := o) (p := p) h (by rw [← he] at hn; exact (List.nodup_append.1 hn).1)
    obtain ⟨st2, e2, i2⟩ := ih (o := o + 1) (ts ++ [⟨p.label, (creSlots ns o p).map I, (annSlots ns o p).map I, .antisymmetric, false⟩]) i1 he
    refine ⟨st2, ?_, i2⟩
    unfold layOps
    rw [e1]
    simp only [bind, Except.bind]
    have a1 : idxList L (creSlots ns o p) = (creSlots ns o p).map I :=
      idxList_map L0 I hI (C := (annSlots ns o p).reverse ++ slotsFrom ns (o + 1) ops) (by rw [← he]; simp [opSlots])
    have a2 : idxList (L ++ creSlots ns o p) (annSlots ns o p).reverse = (annSlots ns o p).reverse.map I :=
      idxList_map L0 I hI (C := slotsFrom ns (o + 1) ops) (by rw [← he]; simp [opSlots])
    rw [a1, a2, List.map_reverse, List.reverse_reverse, e2]
    simp [layTensors]

/-- the index given to each slot -/
def slotIdx (L : List Slot) (x : Slot) : Index := (idxList [] L).getD (L.idxOf x) ⟨0, 0⟩

theorem idxList_eq_map {L : List Slot} (hn : L.Nodup) : idxList [] L = L.map (slotIdx L) := by
  apply List.ext_getElem (by rw [length_idxList, List.length_map])
  intro i h1 h2
  rw [List.getElem_map]
  unfold slotIdx
  have hi : i < L.length := by simpa using h2
  rw [hn.idxOf_getElem i hi, List.getD_eq_getElem?_getD, List.getElem?_eq_getElem h1]; rfl

theorem idxList_get : ∀ (L pre : List Slot) (i : Nat) (h : i < (idxList pre L).length) (h' : i < L.length),
    (idxList pre L)[i] = ⟨(L[i].space : Int), (((pre ++ L.take i).filter (fun y => decide (y.space = L[i].space))).length : Int)⟩ := by
  intro L
  induction L with
  | nil => intro pre i h h'; simp at h'
  | cons x L ih =>
    intro pre i h h'
    cases i with
    | zero => simp [idxList]
    | succ i =>
      simp only [idxList, List.getElem_cons_succ]
      rw [ih (pre ++ [x]) i (by simpa [idxList] using h) (by simpa using h')]
      simp

theorem slotIdx_space {L : List Slot} (hn : L.Nodup) {x : Slot} (hx : x ∈ L) : (slotIdx L x).space = x.space := by
  obtain ⟨i, hi, rfl⟩ := List.getElem_of_mem hx
  unfold slotIdx
  rw [hn.idxOf_getElem i hi, List.getD_eq_getElem?_getD, List.getElem?_eq_getElem (by rw [length_idxList]; exact hi)]
  simp only [Option.getD_some]
  rw [idxList_get L [] i _ hi]

theorem slotIdx_pos {L : List Slot} (hn : L.Nodup) {x : Slot} (hx : x ∈ L) : 0 ≤ (slotIdx L x).pos ∧
    (slotIdx L x).pos < ((L.filter (fun y => decide (y.space = x.space))).length : Int) := by
  obtain ⟨i, hi, rfl⟩ := List.getElem_of_mem hx
  unfold slotIdx
  rw [hn.idxOf_getElem i hi, List.getD_eq_getElem?_getD, List.getElem?_eq_getElem (by rw [length_idxList]; exact hi)]
  simp only [Option.getD_some]
  rw [idxList_get L [] i _ hi]
  refine ⟨by simp, ?_⟩
  simp only [List.nil_append]
  have h1 : L = L.take i ++ L[i] :: L.drop (i + 1) := by simp
  have h2 : ∀ f : Slot → Bool, f L[i] = true → (L.filter f).length = ((L.take i).filter f).length + (((L.drop (i + 1)).filter f).length + 1) := by
    intro f hf
    have := congrArg (fun l => (l.filter f).length) h1
    simp only [List.filter_append, List.length_append, List.filter_cons, hf, if_true, List.length_cons] at this
    exact this
  rw [h2 _ (by simp)]
  push_cast; omega

theorem slotIdx_inj {L : List Slot} (hn : L.Nodup) {x y : Slot} (hx : x ∈ L) (hy : y ∈ L)
    (h : slotIdx L x = slotIdx L y) : x = y := by
  obtain ⟨i, hi, rfl⟩ := List.getElem_of_mem hx
  obtain ⟨j, hj, rfl⟩ := List.getElem_of_mem hy
  unfold slotIdx at h
  rw [hn.idxOf_getElem i hi, hn.idxOf_getElem j hj, List.getD_eq_getElem?_getD, List.getD_eq_getElem?_getD,
    List.getElem?_eq_getElem (by rw [length_idxList]; exact hi), List.getElem?_eq_getElem (by rw [length_idxList]; exact hj)] at h
  simp only [Option.getD_some] at h
  rw [idxList_get L [] i _ hi, idxList_get L [] j _ hj] at h
  simp only [List.nil_append, Index.mk.injEq, Nat.cast_inj] at h
  obtain ⟨h1, h2⟩ := h
  -- the one that comes first has fewer predecessors
  have key : ∀ i j (hi : i < L.length) (hj : j < L.length), i < j → L[i].space = L[j].space →
      ((L.take i).filter (fun y => decide (y.space = L[i].space))).length <
      ((L.take j).filter (fun y => decide (y.space = L[j].space))).length := by
    intro i j hi hj hij he
    have : L.take j = L.take i ++ L[i] :: (L.take j).drop (i + 1) := by
      have e2 : (L.take j)[i]'(by simp; omega) = L[i] := by simp
      have e3 : L.take i = (L.take j).take i := by rw [List.take_take]; congr 1; omega
      have e4 : ∀ (M : List Slot) (h : i < M.length), M = M.take i ++ M[i] :: M.drop (i + 1) := by intro M h; simp
      have e4 := e4 (L.take j) (by simp; omega)
      rw [e3, ← e2]; exact e4
    rw [this, List.filter_append, List.length_append, List.filter_cons, he]
    simp
  by_contra hne
  have hij : i ≠ j := fun h => hne (by subst h; rfl)
  rcases Nat.lt_or_gt_of_ne hij with hlt | hlt
  · have := key i j hi hj hlt h1; omega
  · have := key j i hj hi hlt h1.symm; omega

/-- **Layout**: the tensors, the operators and the map of positions written by `contraction_tensors_sqops` -/
theorem tensorsSqops_ok (ns : Nat) (ops : OperatorProduct) :
    ∃ om, tensorsSqops ns ops = .ok (layTensors ns (slotIdx (slots ns ops)) 0 ops,
        (slots ns ops).map (fun x => ⟨x.type, slotIdx (slots ns ops) x⟩), om) ∧
      ∀ x p, SMap.find (Slot.key x) om = some p ↔ ∃ q : Nat, p = q ∧ (slots ns ops)[q]? = some x := by
  have h0 : LInv ns [] ⟨List.replicate ns 0, [], [], []⟩ := by
    refine ⟨by simp, ?_, rfl, List.Pairwise.nil, ?_⟩
    · intro s hs; simp [List.getD_eq_getElem?_getD, List.getElem?_replicate, hs]
    · intro key p; simp [SMap.find]
  have hn := nodup_slots ns ops
  obtain ⟨st, e, i⟩ := layOps_ok (ns := ns) (idxList_eq_map hn) hn ops (o := 0) [] h0 rfl
  refine ⟨st.opMap, ?_, ?_⟩
  · unfold tensorsSqops
    rw [e]
    simp only [bind, Except.bind, pure, Except.pure, List.nil_append]
    congr 3
    rw [i.sq]
    unfold sqList
    rw [idxList_eq_map hn, List.zipWith_map_right, List.zipWith_self]
  · intro x p
    rw [i.find]
    constructor
    · rintro ⟨q, rfl, y, hy, hk⟩
      rw [Slot.key_inj hk] at hy; exact ⟨q, rfl, hy⟩
    · rintro ⟨q, rfl, hy⟩
      exact ⟨q, rfl, x, hy, rfl⟩

end Wick
end Wicked
