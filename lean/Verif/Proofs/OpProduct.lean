import Verif.Spec.OpProduct
import Verif.Spec.Wick
import Verif.Proofs.GM
import Verif.Proofs.TermOrder
import Verif.Proofs.Lin
import Mathlib.Algebra.Ring.Basic
import Mathlib.Algebra.Ring.Int.Parity
/-! Products of operators: bubble sort with non-commuting neighbours -/
namespace Wicked
open CppLt

theorem commute_foldl (ns : Nat) (a b : Operator) (n : Int) :
    (List.range ns).foldl (fun n s => n + (a.gm.ann s * b.gm.cre s + a.gm.cre s * b.gm.ann s)) n =
      n + ((List.range ns).map (fun s => a.gm.ann s * b.gm.cre s + a.gm.cre s * b.gm.ann s)).sum := by
  induction List.range ns generalizing n with
  | nil => simp
  | cons x l ih => simp only [List.foldl_cons, List.map_cons, List.sum_cons, ih]; omega

theorem sum_eq_zero_iff_nonneg (l : List Int) (h : ∀ x ∈ l, 0 ≤ x) : l.sum = 0 ↔ ∀ x ∈ l, x = 0 := by
  induction l with
  | nil => simp
  | cons a l ih =>
    have h1 := h a (by simp)
    have h2 : 0 ≤ l.sum := List.sum_nonneg (fun x hx => h x (by simp [hx]))
    rw [List.sum_cons, List.forall_mem_cons, ← ih (fun x hx => h x (by simp [hx]))]
    omega

theorem commute_iff {ns : Nat} {a b : Operator} (ha : a.Valid ns) (hb : b.Valid ns) :
    doOperatorsCommute ns a b = true ↔ ¬ SharesContractible ns a b := by
  have hn : ∀ s, 0 ≤ a.gm.ann s * b.gm.cre s ∧ 0 ≤ a.gm.cre s * b.gm.ann s := fun s =>
    ⟨mul_nonneg (ha s).2.1 (hb s).1, mul_nonneg (ha s).1 (hb s).2.1⟩
  unfold doOperatorsCommute SharesContractible
  rw [commute_foldl, Int.zero_add, beq_iff_eq, sum_eq_zero_iff_nonneg]
  · simp only [List.mem_map, List.mem_range, forall_exists_index, and_imp, forall_apply_eq_imp_iff₂]
    constructor
    · rintro h ⟨s, hs, h' | h'⟩
      · have := h s hs
        have h1 := (hn s).1; have h2 := (hn s).2
        have : a.gm.ann s * b.gm.cre s = 0 := by omega
        rcases mul_eq_zero.1 this with h | h
        exacts [h'.1 h, h'.2 h]
      · have := h s hs
        have h1 := (hn s).1; have h2 := (hn s).2
        have : a.gm.cre s * b.gm.ann s = 0 := by omega
        rcases mul_eq_zero.1 this with h | h
        exacts [h'.1 h, h'.2 h]
    · intro h s hs
      have h1 : a.gm.ann s * b.gm.cre s = 0 := by
        rw [mul_eq_zero]; by_contra hc; push Not at hc; exact h ⟨s, hs, Or.inl hc⟩
      have h2 : a.gm.cre s * b.gm.ann s = 0 := by
        rw [mul_eq_zero]; by_contra hc; push Not at hc; exact h ⟨s, hs, Or.inr hc⟩
      omega
  · simp only [List.mem_map]
    rintro x ⟨s, _, rfl⟩
    have h1 := (hn s).1; have h2 := (hn s).2
    omega

theorem shares_symm {ns : Nat} {a b : Operator} (h : SharesContractible ns a b) : SharesContractible ns b a := by
  obtain ⟨s, hs, h | h⟩ := h
  · exact ⟨s, hs, Or.inr ⟨h.2, h.1⟩⟩
  · exact ⟨s, hs, Or.inl ⟨h.2, h.1⟩⟩

theorem numOps_rank (a : Operator) : a.numOps = opRank a := GraphMatrix.numOps_eq a.gm

theorem ncless_iff {ns : Nat} {a b : Operator} (ha : a.Valid ns) (hb : b.Valid ns) :
    operatorNoncommutingLess ns a b = true ↔ ¬ SharesContractible ns a b ∧ lt a b = true := by
  unfold operatorNoncommutingLess
  rw [← commute_iff ha hb]
  split <;> simp [*]

/-- the sign `(-1)^n` -/
def sgI (n : Int) : ℤ := if n.tmod 2 = 0 then 1 else -1

theorem sgI_eq (n : Int) : sgI n = if Even n then 1 else -1 := by
  unfold sgI
  have : n.tmod 2 = 0 ↔ Even n := by rw [even_iff_two_dvd, Int.dvd_iff_tmod_eq_zero]
  simp only [this]

theorem sgI_add (m n : Int) : sgI (m + n) = sgI m * sgI n := by
  simp only [sgI_eq, Int.even_add]
  by_cases h1 : Even m <;> by_cases h2 : Even n <;> simp [h1, h2]

theorem sgI_sq (n : Int) : sgI n * sgI n = 1 := by rw [sgI_eq]; split <;> rfl

section value
variable {A : Type _} [Ring A] {ns : Nat} {φ : Operator → A}

theorem swap_val (hφ : Supercommutes ns φ) {a b : Operator} (h : ¬ SharesContractible ns a b) (x : A) :
    φ a * (φ b * x) = (sgI (a.numOps * b.numOps) : A) * (φ b * (φ a * x)) := by
  rw [sgI_eq, numOps_rank, numOps_rank]
  split
  · rename_i he; rw [← mul_assoc, hφ.even a b h he, mul_assoc]; simp
  · rename_i he; rw [← mul_assoc, hφ.odd a b h he, neg_mul, mul_assoc]; simp

theorem sgI_comm (n : Int) (x y : A) : x * ((sgI n : ℤ) * y) = (sgI n : ℤ) * (x * y) := by
  rw [← mul_assoc, ← mul_assoc, (Int.cast_commute (sgI n) x).eq]

end value

/-- `pass`: the accumulator only adds up -/
theorem pass_acc (ns k : Nat) : ∀ (l : OperatorProduct) (n : Int),
    OperatorProduct.pass ns k l n = ((OperatorProduct.pass ns k l 0).1, n + (OperatorProduct.pass ns k l 0).2) := by
  induction k with
  | zero => intro l n; rcases l with _ | ⟨a, _ | ⟨b, l⟩⟩ <;> simp [OperatorProduct.pass]
  | succ k ih =>
    intro l n
    rcases l with _ | ⟨a, _ | ⟨b, l⟩⟩
    · simp [OperatorProduct.pass]
    · simp [OperatorProduct.pass]
    · unfold OperatorProduct.pass
      split
      · simp only []
        rw [ih (a :: l) (n + _), ih (a :: l) (0 + _)]
        simp only [Prod.mk.injEq, true_and]; omega
      · simp only []
        rw [ih (b :: l) n]

/-- one step of the sort -/
theorem pass_cons (ns k : Nat) (a b : Operator) (l : OperatorProduct) : OperatorProduct.pass ns (k + 1) (a :: b :: l) 0 =
    if operatorNoncommutingLess ns b a then
      (b :: (OperatorProduct.pass ns k (a :: l) 0).1, a.numOps * b.numOps + (OperatorProduct.pass ns k (a :: l) 0).2)
    else (a :: (OperatorProduct.pass ns k (b :: l) 0).1, (OperatorProduct.pass ns k (b :: l) 0).2) := by
  conv_lhs => unfold OperatorProduct.pass
  split
  · simp only []; rw [pass_acc]; simp
  · rfl

/-- induction over the steps of a pass -/
theorem pass_induct (ns : Nat) (P : Nat → OperatorProduct → OperatorProduct → Int → Prop)
    (h0 : ∀ k l, P k l l 0)
    (h1 : ∀ k a b l l' n, operatorNoncommutingLess ns b a = true → P k (a :: l) l' n →
      P (k + 1) (a :: b :: l) (b :: l') (a.numOps * b.numOps + n))
    (h2 : ∀ k a b l l' n, operatorNoncommutingLess ns b a = false → P k (b :: l) l' n →
      P (k + 1) (a :: b :: l) (a :: l') n) (k : Nat) :
    ∀ l, P k l (OperatorProduct.pass ns k l 0).1 (OperatorProduct.pass ns k l 0).2 := by
  induction k with
  | zero => intro l; rcases l with _ | ⟨a, _ | ⟨b, l⟩⟩ <;> exact h0 _ _
  | succ k ih =>
    intro l
    rcases l with _ | ⟨a, _ | ⟨b, l⟩⟩
    · exact h0 _ _
    · exact h0 _ _
    · rw [pass_cons]
      split
      · rename_i h; exact h1 _ _ _ _ _ _ h (ih _)
      · rename_i h; exact h2 _ _ _ _ _ _ (by simpa using h) (ih _)

theorem passes_induct (ns : Nat) (P : OperatorProduct → OperatorProduct → Int → Prop)
    (hrefl : ∀ l, P l l 0)
    (hp : ∀ k l l' l'' m n, (OperatorProduct.pass ns k l 0) = (l', m) → P l' l'' n → P l l'' (m + n)) (k : Nat) :
    ∀ l n, ∃ m, (OperatorProduct.passes ns k l n).2 = n + m ∧ P l (OperatorProduct.passes ns k l n).1 m := by
  induction k with
  | zero => intro l n; exact ⟨0, by simp [OperatorProduct.passes], hrefl l⟩
  | succ k ih =>
    intro l n
    simp only [OperatorProduct.passes]
    rw [pass_acc]
    obtain ⟨m, h1, h2⟩ := ih (OperatorProduct.pass ns (k + 1) l 0).1 (n + (OperatorProduct.pass ns (k + 1) l 0).2)
    refine ⟨(OperatorProduct.pass ns (k + 1) l 0).2 + m, by rw [h1]; omega, hp _ _ _ _ _ _ rfl h2⟩

theorem pass_perm (ns k : Nat) (l : OperatorProduct) : (OperatorProduct.pass ns k l 0).1.Perm l := by
  apply pass_induct ns (fun _ l l' _ => l'.Perm l)
  · intros; exact List.Perm.refl _
  · intro k a b l l' n _ h
    exact (h.cons b).trans (List.Perm.swap _ _ _)
  · intro k a b l l' n _ h
    exact h.cons a

theorem pass_val {A : Type _} [Ring A] {ns : Nat} {φ : Operator → A} (hφ : Supercommutes ns φ) (k : Nat)
    (l : OperatorProduct) (hv : ∀ p ∈ l, p.Valid ns) :
    (l.map φ).prod = (sgI (OperatorProduct.pass ns k l 0).2 : A) * ((OperatorProduct.pass ns k l 0).1.map φ).prod := by
  have := pass_induct ns (fun _ l l' n => (∀ p ∈ l, p.Valid ns) → (l.map φ).prod = (sgI n : A) * (l'.map φ).prod)
    (by intro k l _; simp [sgI])
    (by
      intro k a b l l' n h ih hv
      have ha := hv a (by simp)
      have hb := hv b (by simp)
      have hc := ((ncless_iff hb ha).1 h).1
      have := ih (fun p hp => hv p (by simp only [List.mem_cons] at hp ⊢; tauto))
      simp only [List.map_cons, List.prod_cons] at this ⊢
      rw [swap_val hφ (fun h => hc (shares_symm h)), this, sgI_comm, sgI_add]
      push_cast
      rw [mul_assoc])
    (by
      intro k a b l l' n h ih hv
      have := ih (fun p hp => hv p (by simp only [List.mem_cons] at hp ⊢; tauto))
      simp only [List.map_cons, List.prod_cons] at this ⊢
      rw [this, sgI_comm])
    k l
  exact this hv

theorem pass_filter {ns : Nat} {x y : Operator} (hxy : SharesContractible ns x y) (k : Nat)
    (l : OperatorProduct) (hv : ∀ p ∈ l, p.Valid ns) :
    (OperatorProduct.pass ns k l 0).1.filter (fun p => decide (p = x ∨ p = y)) =
      l.filter (fun p => decide (p = x ∨ p = y)) := by
  have := pass_induct ns (fun _ l l' n => (∀ p ∈ l, p.Valid ns) →
      l'.filter (fun p => decide (p = x ∨ p = y)) = l.filter (fun p => decide (p = x ∨ p = y)))
    (by intro k l _; rfl)
    (by
      intro k a b l l' n h ih hv
      have ha := hv a (by simp)
      have hb := hv b (by simp)
      obtain ⟨hc, hlt⟩ := (ncless_iff hb ha).1 h
      have := ih (fun p hp => hv p (by simp only [List.mem_cons] at hp ⊢; tauto))
      simp only [List.filter_cons, decide_eq_true_eq] at this ⊢
      rw [this]
      by_cases h1 : a = x ∨ a = y <;> by_cases h2 : b = x ∨ b = y <;> simp only [h1, h2, if_true, if_false]
      have hne : b ≠ a := by rintro rfl; rw [StrictWeak.irrefl] at hlt; cases hlt
      exfalso
      rcases h1 with rfl | rfl <;> rcases h2 with rfl | rfl
      · exact hne rfl
      · exact hc (shares_symm hxy)
      · exact hc hxy
      · exact hne rfl)
    (by
      intro k a b l l' n h ih hv
      have := ih (fun p hp => hv p (by simp only [List.mem_cons] at hp ⊢; tauto))
      simp only [List.filter_cons, decide_eq_true_eq] at this ⊢
      rw [this])
    k l
  exact this hv

/-- everything about `passes` that does not depend on the number of passes -/
theorem passes_spec (ns k : Nat) (l : OperatorProduct) (n : Int) (hv : ∀ p ∈ l, p.Valid ns) :
    (OperatorProduct.passes ns k l n).1.Perm l ∧
    (∀ x y, SharesContractible ns x y → (OperatorProduct.passes ns k l n).1.filter (fun p => decide (p = x ∨ p = y)) =
      l.filter (fun p => decide (p = x ∨ p = y))) ∧
    ∀ {A : Type _} [Ring A] {φ : Operator → A}, Supercommutes ns φ →
      (sgI n : A) * (l.map φ).prod =
        (sgI (OperatorProduct.passes ns k l n).2 : A) * ((OperatorProduct.passes ns k l n).1.map φ).prod := by
  induction k generalizing l n with
  | zero => exact ⟨List.Perm.refl _, fun _ _ _ => rfl, fun _ => rfl⟩
  | succ k ih =>
    simp only [OperatorProduct.passes]
    rw [pass_acc]
    have hp := pass_perm ns (k + 1) l
    have hv' : ∀ p ∈ (OperatorProduct.pass ns (k + 1) l 0).1, p.Valid ns := fun p h => hv p (hp.subset h)
    obtain ⟨h1, h2, h3⟩ := ih (OperatorProduct.pass ns (k + 1) l 0).1 (n + (OperatorProduct.pass ns (k + 1) l 0).2) hv'
    refine ⟨h1.trans hp, fun x y hxy => (h2 x y hxy).trans (pass_filter hxy _ _ hv), ?_⟩
    intro A _ φ hφ
    rw [← h3 hφ, pass_val hφ (k + 1) l hv, sgI_add]
    push_cast
    rw [mul_assoc]

/-! ## The sort leaves no exchangeable neighbours -/

section bubble
variable {α : Type _} (less : α → α → Bool)

/-- one full pass carrying `f` -/
def bub : α → List α → List α
  | f, [] => [f]
  | f, b :: l => if less b f then b :: bub f l else f :: bub b l

/-- no element can be carried over everything that follows it -/
def NoJump : List α → Prop
  | [] => True
  | g :: post => (post ≠ [] → ∃ h ∈ post, less h g = false) ∧ NoJump post

theorem mem_bub (f : α) (l : List α) : f ∈ bub less f l := by
  induction l with
  | nil => simp [bub]
  | cons b l ih => unfold bub; split <;> simp [ih]

theorem noJump_bub (asym : ∀ a b, less a b = true → less b a = false) (l : List α) : ∀ f, NoJump less (bub less f l) := by
  induction l with
  | nil => intro f; simp [bub, NoJump]
  | cons b l ih =>
    intro f
    unfold bub
    split
    · rename_i h; exact ⟨fun _ => ⟨f, mem_bub less f l, asym _ _ h⟩, ih f⟩
    · rename_i h; exact ⟨fun _ => ⟨b, mem_bub less b l, by simpa using h⟩, ih b⟩

theorem length_bub (l : List α) : ∀ f, (bub less f l).length = l.length + 1 := by
  induction l with
  | nil => intro f; rfl
  | cons b l ih => intro f; unfold bub; split <;> simp [ih]

theorem bub_last (l : List α) : ∀ (f z y : α) (S : List α), NoJump less (f :: l ++ [z]) → bub less f l = S ++ [y] →
    less z y = false := by
  induction l with
  | nil =>
    intro f z y S h he
    have : S = [] ∧ y = f := by
      rcases S with _ | ⟨s, S⟩
      · simp [bub] at he; exact ⟨rfl, he.symm⟩
      · simp [bub] at he
    obtain ⟨_, rfl⟩ := this
    obtain ⟨x, hx, hl⟩ := h.1 (by simp)
    simp at hx; rw [← hx]; exact hl
  | cons b l ih =>
    intro f z y S h he
    unfold bub at he
    split at he
    · rename_i hb
      rcases S with _ | ⟨s, S⟩
      · have := congrArg List.length he; simp [length_bub] at this
      · simp only [List.cons_append, List.cons.injEq] at he
        refine ih f z y S ⟨fun _ => ?_, h.2.2⟩ he.2
        obtain ⟨x, hx, hl⟩ := h.1 (by simp)
        simp only [List.cons_append, List.mem_cons, List.append_eq] at hx
        rcases hx with rfl | hx
        · rw [hl] at hb; cases hb
        · exact ⟨x, hx, hl⟩
    · rcases S with _ | ⟨s, S⟩
      · have := congrArg List.length he; simp [length_bub] at this
      · simp only [List.cons_append, List.cons.injEq] at he
        exact ih b z y S h.2 he.2

end bubble

theorem pass_bub (ns : Nat) (l : OperatorProduct) : ∀ (a : Operator) (t : OperatorProduct),
    (OperatorProduct.pass ns l.length (a :: l ++ t) 0).1 = bub (operatorNoncommutingLess ns) a l ++ t := by
  induction l with
  | nil => intro a t; simp [OperatorProduct.pass, bub]
  | cons b l ih =>
    intro a t
    have := pass_cons ns l.length a b (l ++ t)
    simp only [List.length_cons, List.cons_append] at this ⊢
    rw [this]
    unfold bub
    split
    · simp only []
      have := ih a t
      simp only [List.cons_append] at this
      rw [this]; rfl
    · simp only []
      have := ih b t
      simp only [List.cons_append] at this
      rw [this]; rfl

/-- no two neighbours can be exchanged -/
def Irreducible' (ns : Nat) (l : OperatorProduct) : Prop :=
  l.IsChain (fun a b => operatorNoncommutingLess ns b a = false)

theorem ncless_asymm {ns : Nat} {a b : Operator} (h : operatorNoncommutingLess ns a b = true) :
    operatorNoncommutingLess ns b a = false := by
  unfold operatorNoncommutingLess at *
  split at h
  · split
    · exact lt_asymm h
    · rfl
  · cases h

theorem passes_irreducible (ns k : Nat) : ∀ (s t : OperatorProduct) (n : Int), s.length = k + 1 → Irreducible' ns t →
    (∀ z ∈ t.head?, NoJump (operatorNoncommutingLess ns) (s ++ [z])) →
    Irreducible' ns (OperatorProduct.passes ns k (s ++ t) n).1 := by
  induction k with
  | zero =>
    intro s t n hs ht hz
    obtain ⟨f, rfl⟩ := List.length_eq_one_iff.1 hs
    simp only [OperatorProduct.passes, List.cons_append, List.nil_append]
    rcases t with _ | ⟨z, t⟩
    · exact List.isChain_singleton _
    · unfold Irreducible'
      rw [List.isChain_cons_cons]
      obtain ⟨x, hx, hl⟩ := (hz z (by simp)).1 (by simp)
      simp at hx; subst hx
      exact ⟨hl, ht⟩
  | succ k ih =>
    intro s t n hs ht hz
    rcases s with _ | ⟨f, l⟩
    · simp at hs
    simp only [List.length_cons] at hs
    simp only [OperatorProduct.passes]
    rw [pass_acc]
    have hb := pass_bub ns l f t
    rw [show l.length = k + 1 by omega] at hb
    rw [hb]
    obtain ⟨S, y, hS⟩ : ∃ S y, bub (operatorNoncommutingLess ns) f l = S ++ [y] := by
      have hne : bub (operatorNoncommutingLess ns) f l ≠ [] := by
        intro h; have := congrArg List.length h; simp [length_bub] at this
      exact ⟨_, _, (List.dropLast_append_getLast hne).symm⟩
    have hlen := length_bub (operatorNoncommutingLess ns) l f
    rw [hS] at hlen ⊢
    rw [List.append_assoc]
    refine ih S _ _ (by simp at hlen; omega) ?_ ?_
    · rcases t with _ | ⟨z, t⟩
      · exact List.isChain_singleton _
      · simp only [List.cons_append, List.nil_append]
        unfold Irreducible'
        rw [List.isChain_cons_cons]
        exact ⟨bub_last _ l f z y S (hz z (by simp)) hS, ht⟩
    · intro z hz
      simp at hz; subst hz
      rw [← hS]
      exact noJump_bub _ (fun a b h => ncless_asymm h) l f

theorem canonicalize_irreducible (ns : Nat) (p : OperatorProduct) :
    Irreducible' ns (OperatorProduct.canonicalize ns p).1 := by
  show Irreducible' ns (OperatorProduct.passes ns (p.length - 1) p 0).1
  rcases p with _ | ⟨a, l⟩
  · exact List.isChain_nil
  · have := passes_irreducible ns l.length (a :: l) [] 0 (by simp) List.isChain_nil (by simp)
    simpa using this

theorem bub_of_irreducible {ns : Nat} (l : OperatorProduct) : ∀ (f : Operator), Irreducible' ns (f :: l) →
    bub (operatorNoncommutingLess ns) f l = f :: l := by
  induction l with
  | nil => intro f _; rfl
  | cons b l ih =>
    intro f h
    unfold Irreducible' at h
    rw [List.isChain_cons_cons] at h
    unfold bub
    rw [h.1]
    simp only [Bool.false_eq_true, if_false]
    rw [ih b h.2]

theorem pass_of_irreducible {ns : Nat} (k : Nat) : ∀ (l : OperatorProduct), Irreducible' ns l →
    OperatorProduct.pass ns k l 0 = (l, 0) := by
  induction k with
  | zero => intro l _; rcases l with _ | ⟨a, _ | ⟨b, l⟩⟩ <;> rfl
  | succ k ih =>
    intro l h
    rcases l with _ | ⟨a, _ | ⟨b, l⟩⟩
    · rfl
    · rfl
    · unfold Irreducible' at h
      rw [List.isChain_cons_cons] at h
      rw [pass_cons, h.1]
      simp only [Bool.false_eq_true, if_false]
      rw [ih _ h.2]

theorem passes_of_irreducible {ns : Nat} (k : Nat) (l : OperatorProduct) (h : Irreducible' ns l) :
    OperatorProduct.passes ns k l 0 = (l, 0) := by
  induction k with
  | zero => rfl
  | succ k ih => simp only [OperatorProduct.passes]; rw [pass_of_irreducible _ l h]; exact ih

/-! ## Uniqueness of the normal form -/

theorem exchanges_invariants {ns : Nat} {p q : OperatorProduct} (h : Exchanges ns p q) :
    p.Perm q ∧ ∀ x y, SharesContractible ns x y →
      p.filter (fun z => decide (z = x ∨ z = y)) = q.filter (fun z => decide (z = x ∨ z = y)) := by
  induction h with
  | refl l => exact ⟨List.Perm.refl _, fun _ _ _ => rfl⟩
  | step l r a b hc _ ih =>
    refine ⟨(List.Perm.append_left l (List.Perm.swap b a r)).trans ih.1, fun x y hxy => (Eq.trans ?_ (ih.2 x y hxy))⟩
    simp only [List.filter_append, List.filter_cons, decide_eq_true_eq]
    congr 1
    by_cases h1 : a = x ∨ a = y <;> by_cases h2 : b = x ∨ b = y <;> simp only [h1, h2, if_true, if_false]
    rcases h1 with rfl | rfl <;> rcases h2 with rfl | rfl
    · rfl
    · exact absurd hxy hc
    · exact absurd (shares_symm hxy) hc
    · rfl

/-- the order of the factors is compatible with exchangeability -/
def ChainCompatible (ns : Nat) (p : OperatorProduct) : Prop :=
  ∀ a ∈ p, ∀ b ∈ p, ∀ c ∈ p, lt a b = true → lt b c = true → ¬ SharesContractible ns a b →
    ¬ SharesContractible ns b c → ¬ SharesContractible ns a c

theorem lt_or_gt_of_ne {a b : Operator} (h : a ≠ b) : lt a b = true ∨ lt b a = true := by
  rcases lt_trichotomy a b with h' | h' | h'
  · exact Or.inl h'
  · exact absurd (eqv_eq.1 h') h
  · exact Or.inr h'

/-- along a list of elements that all commute with `x` and differ from it, ending next to `x` -/
theorem run_below {ns : Nat} (x : Operator) (hx : x.Valid ns) : ∀ (w r : OperatorProduct), (∀ p ∈ w, p.Valid ns) →
    (∀ e ∈ w, ¬ SharesContractible ns e x ∧ e ≠ x) → Irreducible' ns (w ++ x :: r) →
    (∀ a ∈ w, ∀ c ∈ w, lt a x = true → lt x c = true → ¬ SharesContractible ns a c) →
    ∀ e ∈ w, lt e x = true := by
  intro w
  induction w with
  | nil => intro r _ _ _ _ e he; cases he
  | cons y w ih =>
    intro r hv hc hi ht e he
    have hi' : Irreducible' ns (w ++ x :: r) := by
      unfold Irreducible' at hi ⊢
      exact hi.tail
    have ihw := ih r (fun p hp => hv p (by simp [hp])) (fun e he => hc e (by simp [he])) hi'
      (fun a ha c hc => ht a (by simp [ha]) c (by simp [hc]))
    rcases List.mem_cons.1 he with rfl | he
    · rcases lt_or_gt_of_ne (hc e (by simp)).2 with h | h
      · exact h
      · exfalso
        rcases w with _ | ⟨z, w⟩
        · simp only [Irreducible', List.cons_append, List.nil_append, List.isChain_cons_cons] at hi
          have : operatorNoncommutingLess ns x e = true :=
            (ncless_iff hx (hv e (by simp))).2 ⟨fun hs => (hc e (by simp)).1 (shares_symm hs), h⟩
          rw [this] at hi; cases hi.1
        · have hz := ihw z (by simp)
          simp only [Irreducible', List.cons_append, List.isChain_cons_cons] at hi
          have : operatorNoncommutingLess ns z e = true :=
            (ncless_iff (hv z (by simp)) (hv e (by simp))).2
              ⟨ht z (by simp) e (by simp) hz h, StrictWeak.trans _ _ _ hz h⟩
          rw [this] at hi; cases hi.1
    · exact ihw e he

theorem irreducible_unique {ns : Nat} : ∀ (p q : OperatorProduct), (∀ a ∈ p, a.Valid ns) → p.Perm q →
    (∀ x y, SharesContractible ns x y →
      p.filter (fun z => decide (z = x ∨ z = y)) = q.filter (fun z => decide (z = x ∨ z = y))) →
    ChainCompatible ns p → Irreducible' ns p → Irreducible' ns q → p = q := by
  -- the head of `p` cannot be smaller than the head of `q`
  have key : ∀ (x y : Operator) (p q : OperatorProduct), (∀ a ∈ x :: p, a.Valid ns) → (x :: p).Perm (y :: q) →
      (∀ u v, SharesContractible ns u v →
        (x :: p).filter (fun z => decide (z = u ∨ z = v)) = (y :: q).filter (fun z => decide (z = u ∨ z = v))) →
      ChainCompatible ns (x :: p) → Irreducible' ns (y :: q) → lt x y = true → False := by
    intro x y p q hv hp hf ht hi hxy
    have hne : x ≠ y := by rintro rfl; rw [StrictWeak.irrefl] at hxy; cases hxy
    have hxq : x ∈ q := by
      have := hp.subset (List.mem_cons_self (a := x) (l := p))
      rcases List.mem_cons.1 this with h | h
      · exact absurd h hne
      · exact h
    obtain ⟨w, r, hq, hxw⟩ := List.append_of_mem hxq |>.elim (fun s h => by
      classical
      exact (List.eq_append_cons_of_mem hxq))
    subst hq
    have hmem : ∀ e ∈ y :: w, e ∈ x :: p := fun e he => hp.symm.subset (by
      simp only [List.mem_cons, List.mem_append] at he ⊢; tauto)
    have hc : ∀ e ∈ y :: w, ¬ SharesContractible ns e x ∧ e ≠ x := by
      intro e he
      have hex : e ≠ x := by
        rintro rfl
        rcases List.mem_cons.1 he with h | h
        · exact hne h
        · exact hxw h
      refine ⟨fun hs => ?_, hex⟩
      have hfe := hf e x hs
      rw [List.filter_cons_of_pos (by simp)] at hfe
      have hsplit : (y :: (w ++ x :: r)).filter (fun z => decide (z = e ∨ z = x)) =
          (y :: w).filter (fun z => decide (z = e ∨ z = x)) ++ (x :: r).filter (fun z => decide (z = e ∨ z = x)) := by
        rw [← List.filter_append]; rfl
      rw [hsplit] at hfe
      have hin : e ∈ (y :: w).filter (fun z => decide (z = e ∨ z = x)) := by
        rw [List.mem_filter]; exact ⟨he, by simp⟩
      rcases hw : (y :: w).filter (fun z => decide (z = e ∨ z = x)) with _ | ⟨g, gs⟩
      · rw [hw] at hin; cases hin
      · rw [hw] at hfe
        simp only [List.cons_append, List.cons.injEq] at hfe
        have hg : g ∈ (y :: w).filter (fun z => decide (z = e ∨ z = x)) := by rw [hw]; simp
        have hg' := (List.mem_filter.1 hg).1
        rw [← hfe.1] at hg'
        rcases List.mem_cons.1 hg' with h | h
        · exact hne h
        · exact hxw h
    have := run_below x (hv x (by simp)) (y :: w) r (fun e he => hv e (hmem e he)) hc hi
      (fun a ha c hc' h1 h2 => ht a (hmem a ha) x (by simp) c (hmem c hc') h1 h2 (hc a ha).1
        (fun hs => (hc c hc').1 (shares_symm hs)))
      y (by simp)
    rw [lt_asymm hxy] at this
    cases this
  intro p
  induction p with
  | nil => intro q _ hp _ _ _ _; exact (List.nil_perm.1 hp).symm
  | cons x p ih =>
    intro q hv hp hf ht hip hiq
    rcases q with _ | ⟨y, q⟩
    · exact absurd hp (by simp)
    have hxy : x = y := by
      by_contra hne
      rcases lt_or_gt_of_ne hne with h | h
      · exact key x y p q hv hp hf ht hiq h
      · exact key y x q p (fun a ha => hv a (hp.symm.subset ha)) hp.symm (fun u v huv => (hf u v huv).symm)
          (fun a ha b hb c hc => ht a (hp.symm.subset ha) b (hp.symm.subset hb) c (hp.symm.subset hc)) hip h
    subst hxy
    rw [ih q (fun a ha => hv a (by simp [ha])) (List.perm_cons _ |>.1 hp) ?_
      (fun a ha b hb c hc => ht a (by simp [ha]) b (by simp [hb]) c (by simp [hc])) hip.tail hiq.tail]
    intro u v huv
    have := hf u v huv
    simp only [List.filter_cons] at this
    split at this
    · exact (List.cons.injEq .. ▸ this).2
    · exact this

end Wicked
