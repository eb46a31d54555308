import Verif.Spec.Graph
import Verif.Proofs.WickProc
import Verif.Proofs.WickRest
import Mathlib.Tactic.LinearCombination
/-! Graph canonicalization -/
namespace Wicked
open CppLt CppEq Rational
namespace Wick

/-! ### the bubble sort in `is_ops_permutation_valid` -/

/-- every exchanged pair may be exchanged -/
def AllInv (perm : Nat → Nat → Bool) (l : List Int) : Prop :=
  l.Pairwise (fun a b => b < a → perm b.toNat a.toNat = true)

/-- the sign of one exchange -/
def xsign (ops : OperatorProduct) (a b : Int) : ℚ :=
  ((1 - 2 * ((opAt ops b.toNat).numOps * (opAt ops a.toNat).numOps).tmod 2 : Int) : ℚ)

/-- product of the signs over all exchanged pairs -/
def invProd (ops : OperatorProduct) : List Int → ℚ
  | [] => 1
  | a :: l => (l.map (fun b => if b < a then xsign ops a b else 1)).prod * invProd ops l

theorem headProd_perm (ops : OperatorProduct) (a : Int) {l l' : List Int} (h : l.Perm l') :
    (l.map (fun b => if b < a then xsign ops a b else 1)).prod = (l'.map (fun b => if b < a then xsign ops a b else 1)).prod :=
  (h.map _).prod_eq

theorem validPass_spec (ops : OperatorProduct) (perm : Nat → Nat → Bool) : ∀ (k : Nat) (l : List Int) (s : Rational),
    match validPass ops perm k l s with
    | some r => r.1.Perm l ∧ (AllInv perm r.1 ↔ AllInv perm l) ∧ toRat r.2 * invProd ops r.1 = toRat s * invProd ops l
    | none => ¬ AllInv perm l := by
  intro k
  induction k with
  | zero => intro l s; exact ⟨List.Perm.refl _, Iff.rfl, rfl⟩
  | succ k ih =>
    intro l s
    match l with
    | [] => exact ⟨List.Perm.refl _, Iff.rfl, rfl⟩
    | [a] => exact ⟨List.Perm.refl _, Iff.rfl, rfl⟩
    | a :: b :: l =>
      rw [validPass]
      by_cases hba : b < a
      · rw [if_pos hba]
        by_cases hp : perm b.toNat a.toNat = true
        · rw [if_pos hp]
          have h1 := ih (a :: l) (Rational.mul s (Rational.ofInt (1 - 2 * ((opAt ops b.toNat).numOps * (opAt ops a.toNat).numOps).tmod 2)))
          have key : AllInv perm (a :: b :: l) ↔ (∀ x ∈ l, x < b → perm x.toNat b.toNat = true) ∧ AllInv perm (a :: l) := by
            unfold AllInv
            simp only [List.pairwise_cons, List.mem_cons, forall_eq_or_imp]
            constructor
            · rintro ⟨⟨_, h1⟩, h2, h3⟩; exact ⟨h2, h1, h3⟩
            · rintro ⟨h2, h1, h3⟩; exact ⟨⟨fun _ => hp, h1⟩, h2, h3⟩
          revert h1
          cases validPass ops perm k (a :: l) _ with
          | none =>
            intro h1
            simp only at h1 ⊢
            intro hc; exact h1 (key.1 hc).2
          | some r =>
            intro h1
            simp only at h1 ⊢
            obtain ⟨i1, i2, i3⟩ := h1
            refine ⟨((List.Perm.cons b i1).trans (List.Perm.swap a b l)), ?_, ?_⟩
            · rw [key]
              show (b :: r.1).Pairwise _ ↔ _
              rw [List.pairwise_cons]
              have : (∀ x ∈ r.1, x < b → perm x.toNat b.toNat = true) ↔ ∀ x ∈ l, x < b → perm x.toNat b.toNat = true := by
                constructor
                · intro h x hx; exact h x (i1.mem_iff.2 (by simp [hx]))
                · intro h x hx
                  rcases List.mem_cons.1 (i1.mem_iff.1 hx) with rfl | hx
                  · intro hh; omega
                  · exact h x hx
              rw [this]
              exact and_congr Iff.rfl i2
            · simp only [invProd] at i3 ⊢
              rw [headProd_perm ops b i1]
              rw [toRat_mul, toRat_ofInt] at i3
              simp only [List.map_cons, List.prod_cons, if_pos hba, if_neg (show ¬ a < b by omega), one_mul]
              rw [show ((1 - 2 * ((opAt ops b.toNat).numOps * (opAt ops a.toNat).numOps).tmod 2 : Int) : ℚ) = xsign ops a b from rfl] at i3
              linear_combination ((l.map (fun x => if x < b then xsign ops b x else 1)).prod) * i3
        · rw [if_neg hp]
          simp only
          intro hc
          exact hp ((List.pairwise_cons.1 hc).1 b (by simp) hba)
      · rw [if_neg hba]
        have h1 := ih (b :: l) s
        revert h1
        cases validPass ops perm k (b :: l) s with
        | none =>
          intro h1
          simp only at h1 ⊢
          intro hc; exact h1 (List.pairwise_cons.1 hc).2
        | some r =>
          intro h1
          simp only at h1 ⊢
          obtain ⟨i1, i2, i3⟩ := h1
          refine ⟨List.Perm.cons a i1, ?_, ?_⟩
          · unfold AllInv
            rw [List.pairwise_cons, List.pairwise_cons]
            refine and_congr ?_ i2
            exact ⟨fun h x hx => h x (i1.mem_iff.2 hx), fun h x hx => h x (i1.mem_iff.1 hx)⟩
          · simp only [invProd] at i3 ⊢
            rw [headProd_perm ops a i1]
            linear_combination (((b :: l).map (fun x => if x < a then xsign ops a x else 1)).prod) * i3

/-- one pass moves the largest of the first `k + 1` entries to place `k` and leaves the rest alone -/
theorem validPass_max (ops : OperatorProduct) (perm : Nat → Nat → Bool) : ∀ (k : Nat) (l : List Int) (s : Rational) (r : List Int × Rational),
    validPass ops perm k l s = some r → k < l.length →
    ∃ pre m, r.1 = pre ++ m :: l.drop (k + 1) ∧ (pre ++ [m]).Perm (l.take (k + 1)) ∧ ∀ x ∈ pre, x ≤ m := by
  intro k
  induction k with
  | zero =>
    intro l s r h hk
    simp only [validPass, Option.some.injEq] at h
    subst h
    match l, hk with
    | a :: l, _ => exact ⟨[], a, by simp, by simp, by simp⟩
  | succ k ih =>
    intro l s r h hk
    match l, hk, h with
    | [], hk, _ => simp at hk
    | [a], hk, _ => simp at hk
    | a :: b :: l, hk, h =>
      rw [validPass] at h
      by_cases hba : b < a
      · rw [if_pos hba] at h
        split at h
        · split at h
          · rename_i r' hr'
            simp only [Option.some.injEq] at h
            subst h
            obtain ⟨pre, m, e1, e2, e3⟩ := ih _ _ _ hr' (by simp at hk ⊢; omega)
            refine ⟨b :: pre, m, by simp [e1], ?_, ?_⟩
            · simp only [List.take_succ_cons, List.cons_append] at e2 ⊢
              exact (List.Perm.cons b e2).trans (List.Perm.swap a b _)
            · intro x hx
              rcases List.mem_cons.1 hx with rfl | hx
              · have : a ∈ pre ++ [m] := e2.mem_iff.2 (by simp)
                rcases List.mem_append.1 this with h | h
                · have := e3 a h; omega
                · simp at h; omega
              · exact e3 x hx
          · cases h
        · cases h
      · rw [if_neg hba] at h
        split at h
        · rename_i r' hr'
          simp only [Option.some.injEq] at h
          subst h
          obtain ⟨pre, m, e1, e2, e3⟩ := ih _ _ _ hr' (by simp at hk ⊢; omega)
          refine ⟨a :: pre, m, by simp [e1], ?_, ?_⟩
          · simp only [List.take_succ_cons, List.cons_append] at e2 ⊢
            exact List.Perm.cons a e2
          · intro x hx
            rcases List.mem_cons.1 hx with rfl | hx
            · have : b ∈ pre ++ [m] := e2.mem_iff.2 (by simp)
              rcases List.mem_append.1 this with h | h
              · have := e3 b h; omega
              · simp at h; omega
            · exact e3 x hx
        · cases h

theorem validPasses_spec (ops : OperatorProduct) (perm : Nat → Nat → Bool) : ∀ (k : Nat) (l : List Int) (s : Rational),
    (l ≠ [] → k < l.length) → (l.drop (k + 1)).Pairwise (· ≤ ·) → (∀ x ∈ l.take (k + 1), ∀ y ∈ l.drop (k + 1), x ≤ y) →
    match validPasses ops perm k l s with
    | some r => AllInv perm l ∧ toRat r.2 = toRat s * invProd ops l
    | none => ¬ AllInv perm l := by
  have sorted_ok : ∀ (l : List Int), l.Pairwise (· ≤ ·) → AllInv perm l ∧ invProd ops l = 1 := by
    intro l
    induction l with
    | nil => intro _; exact ⟨List.Pairwise.nil, rfl⟩
    | cons a l ih =>
      intro h
      rw [List.pairwise_cons] at h
      refine ⟨List.pairwise_cons.2 ⟨fun b hb hlt => ?_, (ih h.2).1⟩, ?_⟩
      · have := h.1 b hb; omega
      · rw [invProd, (ih h.2).2, mul_one]
        have : l.map (fun b => if b < a then xsign ops a b else 1) = l.map (fun _ => 1) := by
          apply List.map_congr_left
          intro b hb
          rw [if_neg]; have := h.1 b hb; omega
        rw [this]; simp
  intro k
  induction k with
  | zero =>
    intro l s h0 h1 h2
    simp only [validPasses]
    have : l.Pairwise (· ≤ ·) := by
      match l with
      | [] => exact List.Pairwise.nil
      | a :: l => simp at h1 h2; exact List.pairwise_cons.2 ⟨h2, h1⟩
    refine ⟨(sorted_ok l this).1, by rw [(sorted_ok l this).2, mul_one]⟩
  | succ k ih =>
    intro l s h0 h1 h2
    rw [validPasses]
    by_cases hl : l = []
    · subst hl
      have : validPass ops perm (k + 1) [] s = some ([], s) := rfl
      rw [this]
      exact ih [] s (by simp) (by simp) (by simp)
    have hk := h0 hl
    have hs := validPass_spec ops perm (k + 1) l s
    have hm := validPass_max ops perm (k + 1) l s
    revert hs hm
    cases validPass ops perm (k + 1) l s with
    | none => intro hs _; exact hs
    | some r =>
      intro hs hm
      obtain ⟨p1, p2, p3⟩ := hs
      obtain ⟨pre, m, e1, e2, e3⟩ := hm r rfl hk
      simp only
      have hlen : pre.length = k + 1 := by
        have := e2.length_eq
        simp at this; omega
      have ht : r.1.take (k + 1) = pre := by rw [e1]; exact List.take_left' hlen
      have hd : r.1.drop (k + 1) = m :: l.drop (k + 1 + 1) := by rw [e1]; exact List.drop_left' hlen
      have := ih r.1 r.2 (fun _ => by rw [p1.length_eq]; omega) (by
        rw [hd, List.pairwise_cons]
        exact ⟨fun y hy => h2 m (e2.mem_iff.1 (by simp)) y hy, h1⟩) (by
        rw [ht, hd]
        intro x hx y hy
        rcases List.mem_cons.1 hy with rfl | hy
        · exact e3 x hx
        · exact h2 x (e2.mem_iff.1 (by simp [hx])) y hy)
      revert this
      cases validPasses ops perm k r.1 r.2 with
      | none => intro h; simp only at h ⊢; rw [← p2]; exact h
      | some q => intro h; simp only at h ⊢; rw [← p2, ← p3]; exact h

/-- **The validity test of `is_ops_permutation_valid`** -/
theorem opsPermValid_spec (ops : OperatorProduct) (perm : Nat → Nat → Bool) (l : List Int) :
    match opsPermValid ops l perm with
    | some s => AllInv perm l ∧ toRat s = invProd ops l
    | none => ¬ AllInv perm l := by
  have := validPasses_spec ops perm (l.length - 1) l (Rational.ofInt 1) (by
    intro h; have := List.length_pos_of_ne_nil h; omega) (by
    rw [List.drop_eq_nil_of_le (by omega)]; exact List.Pairwise.nil) (by
    rw [List.drop_eq_nil_of_le (by omega)]; simp)
  unfold opsPermValid
  revert this
  cases validPasses ops perm (l.length - 1) l (Rational.ofInt 1) with
  | none => intro h; exact h
  | some r => intro h; simp only [Option.map_some]; rw [toRat_ofInt] at h; simpa using h

/-! ### permuted products and contractions -/

/-- operator number at place `k` of a permutation -/
def pAt (p : List Int) (k : Nat) : Nat := (p.getD k 0).toNat

theorem pAt_lt {n : Nat} {p : List Int} (hp : IsPermOf n p) {k : Nat} (hk : k < n) : pAt p k < n := by
  have hl : p.length = n := by have := hp.length_eq; simpa using this
  unfold pAt
  rw [List.getD_eq_getElem?_getD, List.getElem?_eq_getElem (by omega)]
  have : p[k] ∈ (List.range n).map (fun (k : Nat) => (k : Int)) := hp.mem_iff.1 (List.getElem_mem _)
  obtain ⟨j, hj, e⟩ := List.mem_map.1 this
  simp only [Option.getD_some]
  rw [← e]
  simpa using hj

theorem map_pAt {n : Nat} {p : List Int} (hp : IsPermOf n p) {β : Type _} (f : Nat → β) :
    p.map (fun i => f i.toNat) = (List.range n).map (fun k => f (pAt p k)) := by
  have hl : p.length = n := by have := hp.length_eq; simpa using this
  apply List.ext_getElem
  · simp [hl]
  · intro i h1 h2
    simp at h1
    simp [pAt, List.getD_eq_getElem?_getD, h1]

theorem perm_pAt {n : Nat} {p : List Int} (hp : IsPermOf n p) {β : Type _} (f : Nat → β) :
    ((List.range n).map (fun k => f (pAt p k))).Perm ((List.range n).map f) := by
  rw [← map_pAt hp]
  have := hp.map (fun i => f i.toNat)
  rw [List.map_map] at this
  simpa [Function.comp_def] using this

theorem opAt_graphOps {ops : OperatorProduct} {p c : List Int} (hp : IsPermOf ops.length p) {k : Nat} (hk : k < ops.length) :
    opAt (graphOps ops (p, c)) k = opAt ops (pAt p k) := by
  unfold graphOps
  simp only
  rw [map_pAt hp, opAt, List.getD_eq_getElem?_getD, List.getElem?_map, List.getElem?_range hk]
  rfl

theorem length_graphOps {ops : OperatorProduct} {p c : List Int} (hp : IsPermOf ops.length p) : (graphOps ops (p, c)).length = ops.length := by
  unfold graphOps
  rw [List.length_map, hp.length_eq]; simp

theorem gmAt_row {n : Nat} {p : List Int} (hp : IsPermOf n p) (e : EContr) {k : Nat} (hk : k < n) :
    gmAt (p.map (fun i => gmAt e i.toNat)) k = gmAt e (pAt p k) := by
  rw [map_pAt hp (fun j => gmAt e j), gmAt, List.getD_eq_getElem?_getD, List.getElem?_map, List.getElem?_range hk]
  rfl

/-- the rows of the permuted contraction -/
theorem graphContr_perm {cs : CContr} {p c : List Int} (hc : IsPermOf cs.length c) :
    (graphContr cs (p, c)).Perm (cs.map (fun e => p.map (fun i => gmAt e i.toNat))) := by
  unfold graphContr
  simp only
  have h1 := map_pAt hc (fun j => p.map (fun i => gmAt (cs.getD j []) i.toNat))
  rw [h1]
  refine (perm_pAt hc (fun j => p.map (fun i => gmAt (cs.getD j []) i.toNat))).trans (List.Perm.of_eq ?_)
  apply List.ext_getElem
  · simp
  · intro i h1 h2
    simp at h1
    simp [h1]

theorem takenCre_graph {n : Nat} {cs : CContr} {p c : List Int} (hp : IsPermOf n p) (hc : IsPermOf cs.length c) {v : Nat} (hv : v < n) (s : Nat) :
    takenCre (graphContr cs (p, c)) v s = takenCre cs (pAt p v) s := by
  unfold takenCre
  rw [((graphContr_perm hc).map (fun e => (gmAt e v).cre s)).sum_eq, List.map_map]
  congr 1
  apply List.map_congr_left
  intro e _
  simp only [Function.comp_apply, gmAt_row hp e hv]

theorem takenAnn_graph {n : Nat} {cs : CContr} {p c : List Int} (hp : IsPermOf n p) (hc : IsPermOf cs.length c) {v : Nat} (hv : v < n) (s : Nat) :
    takenAnn (graphContr cs (p, c)) v s = takenAnn cs (pAt p v) s := by
  unfold takenAnn
  rw [((graphContr_perm hc).map (fun e => (gmAt e v).ann s)).sum_eq, List.map_map]
  congr 1
  apply List.map_congr_left
  intro e _
  simp only [Function.comp_apply, gmAt_row hp e hv]

theorem evaluable_row {o : OSI} {n : Nat} {e : EContr} (h : Evaluable o n e) {p : List Int} (hp : IsPermOf n p) :
    Evaluable o n (p.map (fun i => gmAt e i.toNat)) := by
  obtain ⟨s, c, a, k, hs, hL, hnn, hc, ha, hk, hk1⟩ := h
  refine ⟨s, fun A => c (pAt p A), fun A => a (pAt p A), k, hs, ⟨?_, ?_⟩, fun A hA => hnn _ (pAt_lt hp hA), ?_, ?_, hk, hk1⟩
  · rw [List.length_map, hp.length_eq]; simp
  · intro A hA t
    rw [gmAt_row hp e hA]
    exact hL.2 _ (pAt_lt hp hA) t
  · rw [← hc]; exact (perm_pAt hp c).sum_eq
  · rw [← ha]; exact (perm_pAt hp a).sum_eq

theorem evalList_graph {o : OSI} {ops : OperatorProduct} {cs : CContr} (h : EvalList o ops cs) {p c : List Int}
    (hp : IsPermOf ops.length p) (hc : IsPermOf cs.length c) : EvalList o (graphOps ops (p, c)) (graphContr cs (p, c)) := by
  constructor
  · intro e he
    rw [length_graphOps hp]
    rw [(graphContr_perm hc).mem_iff] at he
    obtain ⟨e', he', rfl⟩ := List.mem_map.1 he
    exact evaluable_row (h.ev e' he') hp
  · intro v hv s hs
    rw [length_graphOps hp] at hv
    rw [takenCre_graph hp hc hv, takenAnn_graph hp hc hv, opAt_graphOps hp hv]
    exact h.avail _ (pAt_lt hp hv) s hs

theorem sum_nonneg_eq_one {n : Nat} {c : Nat → Int} (hc : ∀ A < n, 0 ≤ c A) (h : ((List.range n).map c).sum = 1) :
    ∃ l < n, c l = 1 ∧ ∀ A < n, A ≠ l → c A = 0 := by
  obtain ⟨l, hl, hp⟩ := exists_pos_of_sum (c := c) (n := n) (by omega)
  have hsplit : ((List.range n).map c).sum = c l + ((List.range n).map (fun A => if A = l then 0 else c A)).sum := by
    have h1 := sum_range_ite n l c
    rw [if_pos hl] at h1
    rw [← h1, ← List.sum_map_add]
    congr 1
    apply List.map_congr_left
    intro A _
    split
    · rename_i h; subst h; simp
    · simp
  have hnn : ∀ A ∈ List.range n, 0 ≤ (if A = l then 0 else c A) := by
    intro A hA; split
    · exact le_refl _
    · exact hc A (List.mem_range.1 hA)
  have hge : 0 ≤ ((List.range n).map (fun A => if A = l then 0 else c A)).sum :=
    List.sum_nonneg (by intro x hx; obtain ⟨A, hA, rfl⟩ := List.mem_map.1 hx; exact hnn A hA)
  have hl1 : c l = 1 := by omega
  refine ⟨l, hl, hl1, ?_⟩
  intro A hA hne
  have hz : ((List.range n).map (fun A => if A = l then 0 else c A)).sum = 0 := by omega
  by_contra hcA
  have hpos : 0 < c A := lt_of_le_of_ne (hc A hA) (Ne.symm hcA)
  have hmem : (fun A => if A = l then 0 else c A) A ∈ (List.range n).map (fun A => if A = l then 0 else c A) :=
    List.mem_map_of_mem (List.mem_range.2 hA)
  have := List.single_le_sum (l := (List.range n).map (fun A => if A = l then 0 else c A))
    (by intro x hx; obtain ⟨A, hA, rfl⟩ := List.mem_map.1 hx; exact hnn A hA) _ hmem
  simp only [if_neg hne] at this
  omega

theorem legsAt_legs {ns n s : Nat} (hs : s < ns) {c a : Nat → Int} {e : EContr} (hL : Legs n s c a e) {A : Nat} (hA : A < n) :
    legsAt ns e A = c A + a A := by
  unfold legsAt
  have : (List.range ns).map (fun t => (gmAt e A).cre t + (gmAt e A).ann t) =
      (List.range ns).map (fun t => if t = s then (fun _ => c A + a A) t else 0) := by
    apply List.map_congr_left
    intro t _
    rw [(hL.2 A hA t).1, (hL.2 A hA t).2]
    split <;> simp
  rw [this, sum_range_ite, if_pos hs]

theorem contractionsCommute_iff {o : OSI} {n : Nat} (h8 : o.spaces.length ≤ 8) {cs : CContr} (hev : ∀ e ∈ cs, Evaluable o n e) {i j : Nat} (hi : i < n) (hj : j < n) (hij : i ≠ j) :
    contractionsCommute o.spaces.length i j cs = true ↔ ¬ PairJoined o.spaces.length cs i j := by
  unfold contractionsCommute PairJoined
  rw [List.all_eq_true]
  push Not
  refine forall₂_congr (fun e he => ?_)
  obtain ⟨s, c, a, k, hs, hL, hnn, hc, ha, hk, hk1⟩ := hev e he
  have hsum : ((List.range e.length).map (legsAt o.spaces.length e)).sum = e.numOps := by
    rw [legs_numOps (by omega) hL, ← List.sum_map_add, hL.1]
    congr 1
    apply List.map_congr_left
    intro A hA
    exact legsAt_legs hs hL (List.mem_range.1 hA)
  rw [hsum, legsAt_legs hs hL hi, legsAt_legs hs hL hj, List.all_eq_true]
  by_cases h2 : e.numOps = 2
  · simp only [h2, if_true, forall_const]
    have hk' : k = 1 := by rw [legs_numOps (by omega) hL, hc, ha] at h2; omega
    subst hk'
    obtain ⟨l, hl, hl1, hl0⟩ := sum_nonneg_eq_one (fun A hA => (hnn A hA).1) hc
    obtain ⟨r, hr, hr1, hr0⟩ := sum_nonneg_eq_one (fun A hA => (hnn A hA).2) ha
    have vc : ∀ A < n, c A = if A = l then 1 else 0 := by
      intro A hA; split
      · rename_i h; rw [h, hl1]
      · exact hl0 A hA (by assumption)
    have va : ∀ A < n, a A = if A = r then 1 else 0 := by
      intro A hA; split
      · rename_i h; rw [h, hr1]
      · exact hr0 A hA (by assumption)
    constructor
    · intro h
      have := h s (List.mem_range.2 hs)
      rw [(hL.2 i hi s).1, (hL.2 i hi s).2, (hL.2 j hj s).1, (hL.2 j hj s).2] at this
      simp only [if_true, Bool.and_eq_true, Bool.not_eq_true', decide_eq_false_iff_not] at this
      rw [vc i hi, va i hi, vc j hj, va j hj] at this ⊢
      intro h1
      split_ifs at this h1 ⊢ <;> first | omega | (exfalso; omega)
    · intro h t ht
      rw [(hL.2 i hi t).1, (hL.2 i hi t).2, (hL.2 j hj t).1, (hL.2 j hj t).2]
      by_cases hts : t = s
      · simp only [hts, if_true, Bool.and_eq_true, Bool.not_eq_true', decide_eq_false_iff_not]
        rw [vc i hi, va i hi, vc j hj, va j hj] at h ⊢
        split_ifs at h ⊢ <;> first | omega | (exfalso; omega)
      · simp [hts]
  · simp [h2]

/-! ### the accepted rearrangements -/

theorem allInv_iff (perm : Nat → Nat → Bool) (p : List Int) :
    AllInv perm p ↔ ∀ a b, Exchanged p a b → perm b.toNat a.toNat = true := by
  unfold AllInv Exchanged
  rw [List.pairwise_iff_forall_sublist]
  constructor
  · intro h a b hab; exact h hab.1 hab.2
  · intro h a b h1 h2; exact h a b ⟨h1, h2⟩

theorem xsign_eq {ops : OperatorProduct} (hv : ∀ i, 0 ≤ (opAt ops i).numOps) (a b : Int) :
    xsign ops a b = (((-1 : Int) ^ ((opAt ops a.toNat).numOps * (opAt ops b.toNat).numOps).toNat : Int) : ℚ) := by
  unfold xsign
  have h0 : 0 ≤ (opAt ops a.toNat).numOps * (opAt ops b.toNat).numOps := mul_nonneg (hv _) (hv _)
  rw [mul_comm (opAt ops b.toNat).numOps]
  generalize (opAt ops a.toNat).numOps * (opAt ops b.toNat).numOps = x at *
  obtain ⟨m, rfl⟩ := Int.eq_ofNat_of_zero_le h0
  rw [Int.toNat_natCast]
  rcases Nat.even_or_odd m with h | h
  · rw [h.neg_one_pow]
    have : ((m : Int)).tmod 2 = 0 := by rw [Int.tmod_eq_emod_of_nonneg h0]; have := Nat.even_iff.1 h; omega
    rw [this]; norm_num
  · rw [h.neg_one_pow]
    have : ((m : Int)).tmod 2 = 1 := by rw [Int.tmod_eq_emod_of_nonneg h0]; have := Nat.odd_iff.1 h; omega
    rw [this]; norm_num

theorem invProd_eq {ops : OperatorProduct} (hv : ∀ i, 0 ≤ (opAt ops i).numOps) (p : List Int) :
    invProd ops p = ((exchangeSign (fun i => (opAt ops i.toNat).numOps) p : Int) : ℚ) := by
  induction p with
  | nil => simp [invProd, exchangeSign]
  | cons a l ih =>
    rw [invProd, exchangeSign, ih]
    push_cast
    congr 1
    rw [List.map_map]
    congr 1
    apply List.map_congr_left
    intro b _
    simp only [Function.comp_apply]
    split
    · rw [xsign_eq hv]; 
    · simp

theorem opAt_numOps_nonneg {ns : Nat} {ops : OperatorProduct} (hv : ∀ p ∈ ops, p.Valid ns) (i : Nat) : 0 ≤ (opAt ops i).numOps := by
  unfold opAt
  rw [List.getD_eq_getElem?_getD]
  cases h : ops[i]? with
  | none => simp [Operator.numOps]; decide
  | some q =>
    obtain ⟨hi, e⟩ := List.getElem?_eq_some_iff.1 h
    have := hv q (e ▸ List.getElem_mem hi)
    exact numOps_nonneg _ (fun t => ⟨(this t).1, (this t).2.1⟩)

theorem isPermOf_iota (n : Nat) (p : List Int) : p ∈ lexPerms (iota n) ↔ IsPermOf n p := mem_lexPerms _ _

theorem exchanged_lt {n : Nat} {p : List Int} (hp : IsPermOf n p) {a b : Int} (h : Exchanged p a b) :
    a.toNat < n ∧ b.toNat < n ∧ b.toNat ≠ a.toNat ∧ 0 ≤ b := by
  have m : ∀ x ∈ p, 0 ≤ x ∧ x.toNat < n := by
    intro x hx
    obtain ⟨j, hj, rfl⟩ := List.mem_map.1 (hp.mem_iff.1 hx)
    simpa using hj
  have ha := m a (h.1.subset (by simp))
  have hb := m b (h.1.subset (by simp))
  have := h.2
  refine ⟨ha.2, hb.2, ?_, hb.1⟩
  omega

theorem pairJoined_comm {ns : Nat} {cs : CContr} {i j : Nat} : PairJoined ns cs i j ↔ PairJoined ns cs j i := by
  unfold PairJoined
  constructor <;> (rintro ⟨e, h1, h2, h3, h4⟩; exact ⟨e, h1, h2, h4, h3⟩)

theorem opsPermValid_iff {o : OSI} {ops : OperatorProduct} (h8 : o.spaces.length ≤ 8) {cs : CContr}
    (hev : ∀ e ∈ cs, Evaluable o ops.length e) (hv : ∀ i, 0 ≤ (opAt ops i).numOps) {p : List Int} (hp : IsPermOf ops.length p) :
    match opsPermValid ops p (fun i j => contractionsCommute o.spaces.length i j cs) with
    | some s => (∀ a b, Exchanged p a b → ¬ PairJoined o.spaces.length cs a.toNat b.toNat) ∧
        toRat s = ((exchangeSign (fun i => (opAt ops i.toNat).numOps) p : Int) : ℚ)
    | none => ¬ ∀ a b, Exchanged p a b → ¬ PairJoined o.spaces.length cs a.toNat b.toNat := by
  have hs := opsPermValid_spec ops (fun i j => contractionsCommute o.spaces.length i j cs) p
  have key : AllInv (fun i j => contractionsCommute o.spaces.length i j cs) p ↔
      ∀ a b, Exchanged p a b → ¬ PairJoined o.spaces.length cs a.toNat b.toNat := by
    rw [allInv_iff]
    refine forall_congr' (fun a => forall_congr' (fun b => imp_congr_right (fun hab => ?_)))
    have := exchanged_lt hp hab
    rw [contractionsCommute_iff h8 hev this.2.1 this.1 this.2.2.1, pairJoined_comm]
  revert hs
  cases opsPermValid ops p (fun i j => contractionsCommute o.spaces.length i j cs) with
  | none => intro h; simp only at h ⊢; rw [← key]; exact h
  | some s => intro h; simp only at h ⊢; rw [← key, ← invProd_eq hv]; exact h

theorem mem_graphs {o : OSI} {ops : OperatorProduct} (h8 : o.spaces.length ≤ 8) {cs : CContr}
    (hev : ∀ e ∈ cs, Evaluable o ops.length e) (hv : ∀ i, 0 ≤ (opAt ops i).numOps) (g : Graph) :
    (∃ s, (g, s) ∈ graphs o.spaces.length ops cs) ↔ Admissible o.spaces.length ops cs g := by
  rcases g with ⟨p, c⟩
  unfold graphs validOpsPerms
  simp only [List.mem_flatMap, List.mem_filterMap, List.mem_map, isPermOf_iota]
  constructor
  · rintro ⟨s, ⟨p', s'⟩, ⟨q, hq, h1⟩, c', hc', h2⟩
    simp only [Option.map_eq_some_iff, Prod.mk.injEq] at h1
    obtain ⟨s'', e1, rfl, rfl⟩ := h1
    simp only [Prod.mk.injEq] at h2
    obtain ⟨⟨rfl, rfl⟩, rfl⟩ := h2
    have := opsPermValid_iff h8 hev hv hq
    rw [e1] at this
    exact ⟨hq, hc', this.1⟩
  · rintro ⟨h1, h2, h3⟩
    have := opsPermValid_iff h8 hev hv h1
    revert this
    cases hh : opsPermValid ops p (fun i j => contractionsCommute o.spaces.length i j cs) with
    | none => intro h; exact absurd h3 h
    | some s =>
      intro _
      exact ⟨s, (p, s), ⟨p, h1, by rw [hh]; rfl⟩, c, h2, rfl⟩

theorem graphs_sign {o : OSI} {ops : OperatorProduct} (h8 : o.spaces.length ≤ 8) {cs : CContr}
    (hev : ∀ e ∈ cs, Evaluable o ops.length e) (hv : ∀ i, 0 ≤ (opAt ops i).numOps) {g : Graph} {s : Rational}
    (h : (g, s) ∈ graphs o.spaces.length ops cs) :
    toRat s = ((exchangeSign (fun i => (opAt ops i.toNat).numOps) g.1 : Int) : ℚ) := by
  unfold graphs validOpsPerms at h
  simp only [List.mem_flatMap, List.mem_filterMap, List.mem_map, isPermOf_iota] at h
  obtain ⟨⟨p', s'⟩, ⟨q, hq, h1⟩, c', hc', h2⟩ := h
  simp only [Option.map_eq_some_iff, Prod.mk.injEq] at h1
  obtain ⟨s'', e1, rfl, rfl⟩ := h1
  simp only [Prod.mk.injEq] at h2
  obtain ⟨rfl, rfl⟩ := h2
  have := opsPermValid_iff h8 hev hv hq
  rw [e1] at this
  exact this.2

theorem not_exchanged_iota (n : Nat) {a b : Int} : ¬ Exchanged (iota n) a b := by
  rintro ⟨h1, h2⟩
  have : (iota n).Pairwise (· < ·) := by
    unfold iota
    rw [List.pairwise_map]
    exact List.pairwise_lt_range.imp (fun h => by exact_mod_cast h)
  have := List.pairwise_iff_forall_sublist.1 this h1
  omega

theorem admissible_id (ns : Nat) (ops : OperatorProduct) (cs : CContr) : Admissible ns ops cs (iota ops.length, iota cs.length) :=
  ⟨List.Perm.refl _, List.Perm.refl _, fun _ _ h => absurd h (not_exchanged_iota _)⟩

/-- **Graph canonicalization never fails**, and what it returns -/
theorem canonicalizeGraph_ok {o : OSI} {ops : OperatorProduct} (h8 : o.spaces.length ≤ 8) {cs : CContr}
    (hev : ∀ e ∈ cs, Evaluable o ops.length e) (hv : ∀ i, 0 ≤ (opAt ops i).numOps) :
    ∃ g s, canonicalizeGraph o.spaces.length ops cs = .ok (graphOps ops g, graphContr cs g, s) ∧ Admissible o.spaces.length ops cs g ∧
      toRat s = ((exchangeSign (fun i => (opAt ops i.toNat).numOps) g.1 : Int) : ℚ) := by
  unfold canonicalizeGraph
  have hp := stdSortBy_perm (fun l r : Graph × Rational => graphLess ops cs l.1 r.1) (graphs o.spaces.length ops cs)
  cases h : stdSortBy (fun l r : Graph × Rational => graphLess ops cs l.1 r.1) (graphs o.spaces.length ops cs) with
  | nil =>
    rw [h] at hp
    obtain ⟨s, hs⟩ := (mem_graphs h8 hev hv _).2 (admissible_id o.spaces.length ops cs)
    have := hp.mem_iff.2 hs
    cases this
  | cons g l =>
    rw [h] at hp
    rcases g with ⟨g, s⟩
    have hm : (g, s) ∈ graphs o.spaces.length ops cs := hp.mem_iff.1 (by simp)
    exact ⟨g, s, rfl, (mem_graphs h8 hev hv g).1 ⟨s, hm⟩, graphs_sign h8 hev hv hm⟩

/-! ### the order of graphs -/

theorem opsCmp_spec : ∀ (l r : OperatorProduct), l.length = r.length →
    (opsCmp l r).getD false = lt l r ∧ (opsCmp l r = none ↔ l = r) := by
  intro l
  induction l with
  | nil => intro r h; cases r with
    | nil => exact ⟨rfl, by simp [opsCmp]⟩
    | cons => simp at h
  | cons a l ih =>
    intro r h
    cases r with
    | nil => simp at h
    | cons b r =>
      obtain ⟨i1, i2⟩ := ih r (by simpa using h)
      rw [opsCmp]
      show _ = lexLt (a :: l) (b :: r) ∧ _
      rw [lexLt]
      by_cases h1 : lt a b = true
      · simp only [h1, if_true, Option.getD_some, true_and]
        simp only [reduceCtorEq, false_iff]
        intro he; injection he with he _; subst he; rw [StrictWeak.irrefl] at h1; cases h1
      · by_cases h2 : lt b a = true
        · rw [if_neg h1, if_pos h2, if_neg h1, if_pos h2]
          refine ⟨rfl, ?_⟩
          simp only [reduceCtorEq, false_iff]
          intro he; injection he with he _; subst he; rw [StrictWeak.irrefl] at h2; cases h2
        · simp only [h1, h2]
          refine ⟨i1, ?_⟩
          simp only [Bool.false_eq_true, if_false]
          rw [i2]
          have : a = b := StrictTotal.conn a b (by simpa using h1) (by simpa using h2)
          subst this; simp

theorem rowCmp_spec : ∀ (l r : EContr), l.length = r.length →
    (rowCmp l r).getD false = lt r l ∧ (rowCmp l r = none ↔ l = r) := by
  intro l
  induction l with
  | nil => intro r h; cases r with
    | nil => exact ⟨rfl, by simp [rowCmp]⟩
    | cons => simp at h
  | cons a l ih =>
    intro r h
    cases r with
    | nil => simp at h
    | cons b r =>
      obtain ⟨i1, i2⟩ := ih r (by simpa using h)
      rw [rowCmp]
      show _ = lexLt (b :: r) (a :: l) ∧ _
      rw [lexLt]
      by_cases h1 : lt a b = true
      · rw [if_pos h1, if_neg (by rw [lt_asymm h1]; simp), if_pos h1]
        refine ⟨rfl, ?_⟩
        simp only [reduceCtorEq, false_iff]
        intro he; injection he with he _; subst he; rw [StrictWeak.irrefl] at h1; cases h1
      · by_cases h2 : lt b a = true
        · rw [if_neg h1, if_pos h2, if_pos h2]
          refine ⟨rfl, ?_⟩
          simp only [reduceCtorEq, false_iff]
          intro he; injection he with he _; subst he; rw [StrictWeak.irrefl] at h2; cases h2
        · rw [if_neg h1, if_neg h2, if_neg h1, if_neg h2]
          refine ⟨i1, ?_⟩
          rw [i2]
          have : a = b := StrictTotal.conn a b (by simpa using h1) (by simpa using h2)
          subst this; simp

theorem rowsCmp_spec (n : Nat) : ∀ (l r : CContr), l.length = r.length → (∀ e ∈ l, e.length = n) → (∀ e ∈ r, e.length = n) →
    (rowsCmp l r).getD false = lt r l ∧ (rowsCmp l r = none ↔ l = r) := by
  intro l
  induction l with
  | nil => intro r h _ _; cases r with
    | nil => exact ⟨rfl, by simp [rowsCmp]⟩
    | cons => simp at h
  | cons a l ih =>
    intro r h hl hr
    cases r with
    | nil => simp at h
    | cons b r =>
      obtain ⟨i1, i2⟩ := ih r (by simpa using h) (fun e he => hl e (by simp [he])) (fun e he => hr e (by simp [he]))
      obtain ⟨j1, j2⟩ := rowCmp_spec a b (by rw [hl a (by simp), hr b (by simp)])
      rw [rowsCmp]
      show _ = lexLt (b :: r) (a :: l) ∧ _
      rw [lexLt]
      cases hc : rowCmp a b with
      | none =>
        have := j2.1 hc
        subst this
        simp only
        rw [StrictWeak.irrefl a]
        simp only [Bool.false_eq_true, if_false]
        exact ⟨i1, by rw [i2]; simp⟩
      | some x =>
        rw [hc] at j1
        simp only [Option.getD_some] at j1
        have hne : a ≠ b := fun he => by have := j2.2 he; rw [hc] at this; cases this
        refine ⟨?_, ?_⟩
        · simp only [Option.getD_some]
          cases x with
          | true => rw [if_pos j1.symm]
          | false =>
            rw [if_neg (by rw [← j1]; simp)]
            have : lt a b = true := by
              by_contra hh
              exact hne (StrictTotal.conn a b (by simpa using hh) j1.symm)
            rw [if_pos this]
        · simp only [reduceCtorEq, false_iff]
          intro he; injection he with he _; exact hne he

/-- the opposite order -/
structure Rev (α : Type) where
  val : α
instance instLtRev {α : Type} [CppLt α] : CppLt (Rev α) := ⟨fun a b => lt b.val a.val⟩
instance instSTRev {α : Type} [CppLt α] [StrictTotal α] : StrictTotal (Rev α) where
  irrefl a := StrictWeak.irrefl a.val
  trans a b c h1 h2 := StrictWeak.trans c.val b.val a.val h2 h1
  incomp a b c h1 h2 h3 h4 := by
    have := StrictWeak.incomp a.val b.val c.val h2 h1 h4 h3
    exact ⟨this.2, this.1⟩
  conn a b h1 h2 := by
    have := StrictTotal.conn a.val b.val h2 h1
    cases a; cases b; simp at this; rw [this]

/-- what `graph_less` compares -/
def gkey (ops : OperatorProduct) (cs : CContr) (g : Graph) : OperatorProduct × Rev CContr := (graphOps ops g, ⟨graphContr cs g⟩)

theorem graphLess_eq {ops : OperatorProduct} {cs : CContr} {n m : Nat} {g h : Graph} (hg1 : g.1.length = n) (hh1 : h.1.length = n)
    (hg2 : g.2.length = m) (hh2 : h.2.length = m) :
    graphLess ops cs g h = lt (gkey ops cs g) (gkey ops cs h) := by
  unfold graphLess
  have h1 := opsCmp_spec (graphOps ops g) (graphOps ops h) (by simp [graphOps, hg1, hh1])
  have h2 := rowsCmp_spec n (graphContr cs g) (graphContr cs h) (by simp [graphContr, hg2, hh2])
    (by intro e he; obtain ⟨c, _, rfl⟩ := List.mem_map.1 he; simp [hg1])
    (by intro e he; obtain ⟨c, _, rfl⟩ := List.mem_map.1 he; simp [hh1])
  show _ = (lt (graphOps ops g) (graphOps ops h) || (!lt (graphOps ops h) (graphOps ops g) && lt (graphContr cs h) (graphContr cs g)))
  cases hc : opsCmp (graphOps ops g) (graphOps ops h) with
  | none =>
    have := h1.2.1 hc
    rw [this, StrictWeak.irrefl]
    simp only [Bool.false_or, Bool.not_false, Bool.true_and]
    exact h2.1
  | some x =>
    rw [hc] at h1
    simp only [Option.getD_some, reduceCtorEq, false_iff] at h1
    simp only
    rw [h1.1]
    cases hx : lt (graphOps ops g) (graphOps ops h) with
    | true => simp
    | false =>
      have : lt (graphOps ops h) (graphOps ops g) = true := by
        by_contra hh
        exact h1.2 (StrictTotal.conn _ _ hx (by simpa using hh))
      rw [this]; simp

theorem stdSortBy_congr {α : Type _} {f g : α → α → Bool} : ∀ (l : List α), (∀ a ∈ l, ∀ b ∈ l, f a b = g a b) → stdSortBy f l = stdSortBy g l := by
  have ins : ∀ (a : α) (l : List α), (∀ b ∈ l, f b a = g b a) → insertBy f a l = insertBy g a l := by
    intro a l
    induction l with
    | nil => intro _; rfl
    | cons b l ih => intro h; rw [insertBy, insertBy, h b (by simp), ih (fun x hx => h x (by simp [hx]))]
  intro l
  induction l with
  | nil => intro _; rfl
  | cons a l ih =>
    intro h
    show insertBy f a (stdSortBy f l) = insertBy g a (stdSortBy g l)
    rw [ih (fun x hx y hy => h x (by simp [hx]) y (by simp [hy]))]
    apply ins
    intro b hb
    exact h b (by simp [(stdSortBy_perm g l).mem_iff.1 hb]) a (by simp)

theorem stdSortBy_key_sorted {α κ : Type _} [CppLt κ] [StrictWeak κ] (key : α → κ) (l : List α) :
    Sorted (fun a b => lt (key a) (key b)) (stdSortBy (fun a b => lt (key a) (key b)) l) := by
  letI : CppLt α := ⟨fun a b => lt (key a) (key b)⟩
  haveI : StrictWeak α := StrictWeak.pullback key (fun _ _ => rfl)
  exact stdSort_sorted l

theorem admissible_len {ns : Nat} {ops : OperatorProduct} {cs : CContr} {g : Graph} (h : Admissible ns ops cs g) :
    g.1.length = ops.length ∧ g.2.length = cs.length := by
  constructor
  · rw [h.ops.length_eq]; simp
  · rw [h.contr.length_eq]; simp

/-- the graph returned is minimal -/
theorem canonicalizeGraph_min {o : OSI} {ops : OperatorProduct} (h8 : o.spaces.length ≤ 8) {cs : CContr}
    (hev : ∀ e ∈ cs, Evaluable o ops.length e) (hv : ∀ i, 0 ≤ (opAt ops i).numOps) {r} (hr : canonicalizeGraph o.spaces.length ops cs = .ok r) :
    (∃ g, Admissible o.spaces.length ops cs g ∧ r.1 = graphOps ops g ∧ r.2.1 = graphContr cs g) ∧
    ∀ g, Admissible o.spaces.length ops cs g → lt (gkey ops cs g) (r.1, (⟨r.2.1⟩ : Rev CContr)) = false := by
  have hadm : ∀ x ∈ graphs o.spaces.length ops cs, Admissible o.spaces.length ops cs x.1 := fun x hx => (mem_graphs h8 hev hv x.1).1 ⟨x.2, hx⟩
  unfold canonicalizeGraph at hr
  have hp := stdSortBy_perm (fun l r : Graph × Rational => graphLess ops cs l.1 r.1) (graphs o.spaces.length ops cs)
  have hs := stdSortBy_key_sorted (fun x : Graph × Rational => gkey ops cs x.1) (graphs o.spaces.length ops cs)
  rw [← stdSortBy_congr (f := fun l r : Graph × Rational => graphLess ops cs l.1 r.1) (graphs o.spaces.length ops cs) (by
    intro a ha b hb
    have h1 := admissible_len (hadm a ha)
    have h2 := admissible_len (hadm b hb)
    exact graphLess_eq h1.1 h2.1 h1.2 h2.2)] at hs
  cases h : stdSortBy (fun l r : Graph × Rational => graphLess ops cs l.1 r.1) (graphs o.spaces.length ops cs) with
  | nil => rw [h] at hr; cases hr
  | cons x l =>
    rw [h] at hr hp hs
    injection hr with hr
    subst hr
    refine ⟨⟨x.1, hadm x (hp.mem_iff.1 (by simp)), rfl, rfl⟩, ?_⟩
    intro g hg
    obtain ⟨s, hs'⟩ := (mem_graphs h8 hev hv g).2 hg
    rcases List.mem_cons.1 (hp.mem_iff.2 hs') with he | hl
    · rw [← he]; exact StrictWeak.irrefl _
    · exact (List.pairwise_cons.1 hs).1 _ hl

/-! ### composition of rearrangements -/

theorem sublist_pair_iff {α : Type _} [DecidableEq α] {l : List α} (hn : l.Nodup) {a b : α} (ha : a ∈ l) (hb : b ∈ l) :
    [a, b].Sublist l ↔ l.idxOf a < l.idxOf b := by
  induction l with
  | nil => cases ha
  | cons c l ih =>
    rw [List.nodup_cons] at hn
    by_cases hac : a = c
    · subst hac
      rw [List.cons_sublist_cons, List.singleton_sublist]
      by_cases hba : b = a
      · subst hba; simp [hn.1]
      · simp only [List.idxOf_cons_self, List.idxOf_cons_ne _ (Ne.symm hba), Nat.zero_lt_succ, iff_true]
        simpa [hba] using hb
    · have ha' : a ∈ l := by simpa [hac] using ha
      have : [a, b].Sublist (c :: l) ↔ [a, b].Sublist l := by
        constructor
        · intro h
          cases h with
          | cons _ h => exact h
          | cons_cons _ h => exact absurd rfl hac
        · intro h; exact h.cons _
      rw [this, List.idxOf_cons_ne _ (Ne.symm hac)]
      by_cases hbc : b = c
      · subst hbc
        simp only [List.idxOf_cons_self, Nat.not_lt_zero, iff_false]
        intro h; exact hn.1 (h.subset (by simp))
      · rw [List.idxOf_cons_ne _ (Ne.symm hbc), ih hn.2 ha' (by simpa [hbc] using hb)]
        omega

theorem nodup_perm {n : Nat} {p : List Int} (hp : IsPermOf n p) : p.Nodup :=
  hp.nodup_iff.2 (List.nodup_range.map (fun a b h => by exact_mod_cast h))

theorem mem_perm {n : Nat} {p : List Int} (hp : IsPermOf n p) {x : Int} : x ∈ p ↔ 0 ≤ x ∧ x < n := by
  rw [hp.mem_iff, List.mem_map]
  constructor
  · rintro ⟨k, hk, rfl⟩; simpa using hk
  · rintro ⟨h1, h2⟩; exact ⟨x.toNat, by simp; omega, by omega⟩

theorem len_perm {n : Nat} {p : List Int} (hp : IsPermOf n p) : p.length = n := by rw [hp.length_eq]; simp

/-- the entry at a place -/
theorem getD_perm {n : Nat} {p : List Int} (hp : IsPermOf n p) {i : Int} (h0 : 0 ≤ i) (h1 : i < n) :
    p.getD i.toNat 0 ∈ p ∧ (p.idxOf (p.getD i.toNat 0) : Int) = i := by
  have hl : i.toNat < p.length := by rw [len_perm hp]; omega
  have : p.getD i.toNat 0 = p[i.toNat] := by simp [List.getD_eq_getElem?_getD, hl]
  rw [this]
  refine ⟨List.getElem_mem _, ?_⟩
  rw [(nodup_perm hp).idxOf_getElem _ hl]; omega

theorem getD_idxOf {p : List Int} {x : Int} (hx : x ∈ p) : p.getD (p.idxOf x) 0 = x := by
  have := List.idxOf_lt_length_of_mem hx
  simp [List.getD_eq_getElem?_getD, this]

theorem isPermOf_of {n : Nat} {p : List Int} (hl : p.length = n) (hn : p.Nodup) (h : ∀ x ∈ p, 0 ≤ x ∧ x < n) : IsPermOf n p := by
  unfold IsPermOf
  have hsub : p ⊆ (List.range n).map (fun (k : Nat) => (k : Int)) := by
    intro x hx
    have := h x hx
    exact List.mem_map.2 ⟨x.toNat, by simp; omega, by omega⟩
  exact (hn.subperm hsub).perm_of_length_le (by simp [hl])

theorem isPermOf_map {n : Nat} {p : List Int} (hp : IsPermOf n p) {f : Int → Int} (hf : ∀ x : Int, 0 ≤ x → x < n → 0 ≤ f x ∧ f x < n)
    (hinj : ∀ x y : Int, 0 ≤ x → x < n → 0 ≤ y → y < n → f x = f y → x = y) : IsPermOf n (p.map f) := by
  apply isPermOf_of
  · rw [List.length_map, len_perm hp]
  · refine (nodup_perm hp).map_on ?_
    intro x hx y hy h
    rw [mem_perm hp] at hx hy
    exact hinj x y hx.1 hx.2 hy.1 hy.2 h
  · intro x hx
    obtain ⟨y, hy, rfl⟩ := List.mem_map.1 hx
    rw [mem_perm hp] at hy
    exact hf y hy.1 hy.2

/-- composition -/
def pcomp (p0 p : List Int) : List Int := p.map (fun k => p0.getD k.toNat 0)
/-- the permutation that composes with `p0` to `q` -/
def pquot (p0 q : List Int) : List Int := q.map (fun a => (p0.idxOf a : Int))

theorem isPermOf_pcomp {n : Nat} {p0 p : List Int} (h0 : IsPermOf n p0) (hp : IsPermOf n p) : IsPermOf n (pcomp p0 p) := by
  refine isPermOf_map hp (fun x h1 h2 => (mem_perm h0).1 (getD_perm h0 h1 h2).1) ?_
  intro x y hx hx' hy hy' h
  have e1 := (getD_perm h0 hx hx').2
  have e2 := (getD_perm h0 hy hy').2
  rw [h] at e1; omega

theorem isPermOf_pquot {n : Nat} {p0 q : List Int} (h0 : IsPermOf n p0) (hq : IsPermOf n q) : IsPermOf n (pquot p0 q) := by
  refine isPermOf_map hq (fun x h1 h2 => ?_) ?_
  · have := List.idxOf_lt_length_of_mem ((mem_perm h0).2 ⟨h1, h2⟩)
    rw [len_perm h0] at this
    omega
  · intro x y hx hx' hy hy' h
    have e1 := getD_idxOf ((mem_perm h0).2 ⟨hx, hx'⟩)
    have e2 := getD_idxOf ((mem_perm h0).2 ⟨hy, hy'⟩)
    have h' : p0.idxOf x = p0.idxOf y := by exact_mod_cast h
    rw [h'] at e1; omega

theorem pcomp_pquot {n : Nat} {p0 q : List Int} (h0 : IsPermOf n p0) (hq : IsPermOf n q) : pcomp p0 (pquot p0 q) = q := by
  unfold pcomp pquot
  rw [List.map_map]
  conv_rhs => rw [← List.map_id q]
  apply List.map_congr_left
  intro x hx
  simp only [Function.comp_apply, Int.toNat_natCast, id]
  exact getD_idxOf ((mem_perm h0).2 ((mem_perm hq).1 hx))

theorem graphOps_comp {ops : OperatorProduct} {p0 c0 p c : List Int} (h0 : IsPermOf ops.length p0) (hp : IsPermOf ops.length p) :
    graphOps (graphOps ops (p0, c0)) (p, c) = graphOps ops (pcomp p0 p, pcomp c0 c) := by
  show p.map (fun i => opAt (graphOps ops (p0, c0)) i.toNat) = (pcomp p0 p).map (fun i => opAt ops i.toNat)
  unfold pcomp
  rw [List.map_map]
  apply List.map_congr_left
  intro x hx
  have := (mem_perm hp).1 hx
  rw [opAt_graphOps h0 (by omega)]
  rfl

theorem graphContr_comp {n : Nat} {cs : CContr} {p0 c0 p c : List Int} (h0 : IsPermOf n p0) (hc0 : IsPermOf cs.length c0)
    (hp : IsPermOf n p) (hc : IsPermOf cs.length c) :
    graphContr (graphContr cs (p0, c0)) (p, c) = graphContr cs (pcomp p0 p, pcomp c0 c) := by
  show c.map (fun j => p.map (fun i => gmAt ((graphContr cs (p0, c0)).getD j.toNat []) i.toNat)) =
    (pcomp c0 c).map (fun j => (pcomp p0 p).map (fun i => gmAt (cs.getD j.toNat []) i.toNat))
  rw [show (pcomp c0 c) = c.map (fun k => c0.getD k.toNat 0) from rfl, List.map_map]
  apply List.map_congr_left
  intro j hj
  have hj' := (mem_perm hc).1 hj
  have hl : j.toNat < c0.length := by rw [len_perm hc0]; omega
  have e : (graphContr cs (p0, c0)).getD j.toNat [] = p0.map (fun i => gmAt (cs.getD (c0.getD j.toNat 0).toNat []) i.toNat) := by
    simp [graphContr, List.getD_eq_getElem?_getD, List.getElem?_map, hl]
  rw [e]
  simp only [Function.comp_apply]
  rw [pcomp, List.map_map]
  apply List.map_congr_left
  intro i hi
  have := (mem_perm hp).1 hi
  rw [gmAt_row h0 _ (by omega)]
  rfl

theorem pairJoined_graph {ns n : Nat} {cs : CContr} (hlen : ∀ e ∈ cs, e.length = n) {p c : List Int} (hp : IsPermOf n p) (hc : IsPermOf cs.length c)
    {i j : Nat} (hi : i < n) (hj : j < n) :
    PairJoined ns (graphContr cs (p, c)) i j ↔ PairJoined ns cs (pAt p i) (pAt p j) := by
  have hrow : ∀ (e : EContr) (k : Nat), k < n → legsAt ns (p.map (fun i => gmAt e i.toNat)) k = legsAt ns e (pAt p k) := by
    intro e k hk
    unfold legsAt
    rw [gmAt_row hp e hk]
  have hsum : ∀ e ∈ cs, ((List.range (p.map (fun i => gmAt e i.toNat)).length).map (legsAt ns (p.map (fun i => gmAt e i.toNat)))).sum =
      ((List.range e.length).map (legsAt ns e)).sum := by
    intro e he
    rw [List.length_map, len_perm hp, hlen e he, ← (perm_pAt hp (legsAt ns e)).sum_eq]
    congr 1
    apply List.map_congr_left
    intro k hk
    exact hrow e k (List.mem_range.1 hk)
  unfold PairJoined
  constructor
  · rintro ⟨e, he, h1, h2, h3⟩
    rw [(graphContr_perm hc).mem_iff] at he
    obtain ⟨e', he', rfl⟩ := List.mem_map.1 he
    rw [hsum e' he'] at h1
    rw [hrow _ _ hi] at h2
    rw [hrow _ _ hj] at h3
    exact ⟨e', he', h1, h2, h3⟩
  · rintro ⟨e, he, h1, h2, h3⟩
    refine ⟨_, (graphContr_perm hc).mem_iff.2 (List.mem_map_of_mem he), ?_, ?_, ?_⟩
    · rw [hsum e he]; exact h1
    · rw [hrow _ _ hi]; exact h2
    · rw [hrow _ _ hj]; exact h3

theorem exchanged_pcomp {n : Nat} {p0 p : List Int} (h0 : IsPermOf n p0) (hp : IsPermOf n p) {a b : Int} (h : Exchanged (pcomp p0 p) a b) :
    Exchanged p0 a b ∨ ∃ i j, Exchanged p i j ∧ p0.getD i.toNat 0 = a ∧ p0.getD j.toNat 0 = b := by
  obtain ⟨h1, h2⟩ := h
  unfold pcomp at h1
  obtain ⟨l, hl, e⟩ := List.sublist_map_iff.1 h1
  match l, e with
  | [i, j], e =>
    simp only [List.map_cons, List.map_nil, List.cons.injEq, and_true] at e
    obtain ⟨rfl, rfl⟩ := e
    have hi := (mem_perm hp).1 (hl.subset (by simp : i ∈ [i, j]))
    have hj := (mem_perm hp).1 (hl.subset (by simp : j ∈ [i, j]))
    have gi := getD_perm h0 hi.1 hi.2
    have gj := getD_perm h0 hj.1 hj.2
    by_cases hij : i < j
    · left
      refine ⟨?_, h2⟩
      rw [sublist_pair_iff (nodup_perm h0) gi.1 gj.1]
      omega
    · right
      refine ⟨i, j, ⟨hl, ?_⟩, rfl, rfl⟩
      have : i ≠ j := by rintro rfl; omega
      omega
  | [], e => simp at e
  | [_], e => simp at e
  | _ :: _ :: _ :: _, e => simp at e

theorem admissible_comp {ns : Nat} {ops : OperatorProduct} {cs : CContr} (hlen : ∀ e ∈ cs, e.length = ops.length) {g0 g : Graph} (h0 : Admissible ns ops cs g0)
    (hg : Admissible ns (graphOps ops g0) (graphContr cs g0) g) : Admissible ns ops cs (pcomp g0.1 g.1, pcomp g0.2 g.2) := by
  rcases g0 with ⟨p0, c0⟩
  rcases g with ⟨p, c⟩
  obtain ⟨a1, a2, a3⟩ := h0
  obtain ⟨b1, b2, b3⟩ := hg
  simp only at *
  rw [length_graphOps a1] at b1
  have hlc : (graphContr cs (p0, c0)).length = cs.length := by simp [graphContr, len_perm a2]
  rw [hlc] at b2
  refine ⟨isPermOf_pcomp a1 b1, isPermOf_pcomp a2 b2, ?_⟩
  intro x y hxy
  rcases exchanged_pcomp a1 b1 hxy with h | ⟨i, j, h, rfl, rfl⟩
  · exact a3 x y h
  · have := b3 i j h
    have hlt := exchanged_lt b1 h
    rwa [pairJoined_graph hlen a1 a2 hlt.1 hlt.2.1] at this

theorem admissible_quot {ns : Nat} {ops : OperatorProduct} {cs : CContr} (hlen : ∀ e ∈ cs, e.length = ops.length) {g0 h : Graph} (h0 : Admissible ns ops cs g0)
    (hh : Admissible ns ops cs h) : Admissible ns (graphOps ops g0) (graphContr cs g0) (pquot g0.1 h.1, pquot g0.2 h.2) := by
  rcases g0 with ⟨p0, c0⟩
  rcases h with ⟨q, d⟩
  obtain ⟨a1, a2, a3⟩ := h0
  obtain ⟨b1, b2, b3⟩ := hh
  simp only at *
  have hlc : (graphContr cs (p0, c0)).length = cs.length := by simp [graphContr, len_perm a2]
  refine ⟨by rw [length_graphOps a1]; exact isPermOf_pquot a1 b1, by rw [hlc]; exact isPermOf_pquot a2 b2, ?_⟩
  intro i j hij
  have hlt := exchanged_lt (isPermOf_pquot a1 b1) hij
  rw [pairJoined_graph hlen a1 a2 hlt.1 hlt.2.1]
  obtain ⟨h1, h2⟩ := hij
  simp only [pquot] at h1
  obtain ⟨l, hl, e⟩ := List.sublist_map_iff.1 h1
  match l, e with
  | [x, y], e =>
    simp only [List.map_cons, List.map_nil, List.cons.injEq, and_true] at e
    obtain ⟨rfl, rfl⟩ := e
    have hx := (mem_perm a1).2 ((mem_perm b1).1 (hl.subset (by simp : x ∈ [x, y])))
    have hy := (mem_perm a1).2 ((mem_perm b1).1 (hl.subset (by simp : y ∈ [x, y])))
    have ex : pAt p0 (p0.idxOf x : Int).toNat = x.toNat := by unfold pAt; rw [Int.toNat_natCast, getD_idxOf hx]
    have ey : pAt p0 (p0.idxOf y : Int).toNat = y.toNat := by unfold pAt; rw [Int.toNat_natCast, getD_idxOf hy]
    rw [ex, ey]
    rcases _root_.lt_trichotomy x y with hlt | heq | hgt
    · rw [pairJoined_comm]
      refine a3 y x ⟨?_, hlt⟩
      rw [sublist_pair_iff (nodup_perm a1) hy hx]; omega
    · subst heq; omega
    · exact b3 x y ⟨hl, hgt⟩
  | [], e => simp at e
  | [_], e => simp at e
  | _ :: _ :: _ :: _, e => simp at e

end Wick
end Wicked
