import Verif.Proofs.PermSign
import Mathlib.Algebra.BigOperators.Group.List.Basic
/-! Products over the pairs of a list, and signs of reorderings -/
namespace Wicked

/-- product of `f` over all pairs (earlier entry, later entry) of a list -/
def pairProd {α M : Type _} [CommMonoid M] (f : α → α → M) : List α → M
  | [] => 1
  | a :: l => (l.map (f a)).prod * pairProd f l

section
variable {α β M : Type _} [CommMonoid M]

theorem pairProd_append (f : α → α → M) (l m : List α) :
    pairProd f (l ++ m) = pairProd f l * pairProd f m * (l.map (fun a => (m.map (f a)).prod)).prod := by
  induction l with
  | nil => simp [pairProd]
  | cons a l ih =>
    simp only [List.cons_append, pairProd, List.map_append, List.prod_append, ih, List.map_cons, List.prod_cons]
    simp only [mul_assoc, mul_comm, mul_left_comm]

theorem pairProd_map (f : β → β → M) (g : α → β) (l : List α) :
    pairProd f (l.map g) = pairProd (fun a b => f (g a) (g b)) l := by
  induction l with
  | nil => rfl
  | cons a l ih => simp only [List.map_cons, pairProd, ih, List.map_map]; rfl

theorem pairProd_congr {f g : α → α → M} {l : List α} (h : l.Pairwise (fun a b => f a b = g a b)) :
    pairProd f l = pairProd g l := by
  induction l with
  | nil => rfl
  | cons a l ih =>
    rw [List.pairwise_cons] at h
    simp only [pairProd, ih h.2]
    rw [List.map_congr_left h.1]

theorem pairProd_one {f : α → α → M} {l : List α} (h : l.Pairwise (fun a b => f a b = 1)) : pairProd f l = 1 := by
  induction l with
  | nil => rfl
  | cons a l ih =>
    rw [List.pairwise_cons] at h
    simp only [pairProd, ih h.2, mul_one]
    rw [List.map_congr_left h.1]
    simp

theorem pairProd_mul (f g : α → α → M) (l : List α) :
    pairProd (fun a b => f a b * g a b) l = pairProd f l * pairProd g l := by
  induction l with
  | nil => simp [pairProd]
  | cons a l ih =>
    simp only [pairProd, ih, List.prod_map_mul]
    simp only [mul_assoc, mul_left_comm]

/-- symmetric functions: the order of the list does not matter -/
theorem pairProd_perm {f : α → α → M} {l l' : List α} (h : l.Perm l') :
    (∀ a ∈ l, ∀ b ∈ l, f a b = f b a) → pairProd f l = pairProd f l' := by
  induction h with
  | nil => intro _; rfl
  | cons x p ih =>
    intro hs
    simp only [pairProd]
    rw [ih (fun a ha b hb => hs a (by simp [ha]) b (by simp [hb])), (p.map (f x)).prod_eq]
  | swap x y l =>
    intro hs
    simp only [pairProd, List.map_cons, List.prod_cons]
    rw [hs y (by simp) x (by simp)]
    simp only [mul_assoc, mul_left_comm]
  | trans p q ih1 ih2 =>
    intro hs
    rw [ih1 hs]
    exact ih2 (fun a ha b hb => hs a (p.mem_iff.2 ha) b (p.mem_iff.2 hb))

end

/-! ### signs -/

/-- the sign of a list relative to the order given by the numbers `r` -/
def sgR {α : Type _} (r : α → Int) (P : List α) : Int := pairProd (fun a b => if r b < r a then -1 else 1) P

theorem sgR_eq {α : Type _} (r : α → Int) (P : List α) : sgR r P = permutationSign (P.map r) := by
  induction P with
  | nil => rfl
  | cons a l ih =>
    unfold sgR at ih ⊢
    rw [List.map_cons, permutationSign_cons, ← ih, pairProd]
    congr 1
    unfold headSign
    rw [List.countP_map]
    clear ih
    induction l with
    | nil => rfl
    | cons b l ih =>
      simp only [List.map_cons, List.prod_cons, List.countP_cons, ih]
      by_cases h : r b < r a
      · simp [h, pow_succ]
      · simp [h]

theorem sgR_sq {α : Type _} (r : α → Int) (P : List α) : sgR r P * sgR r P = 1 := by
  rw [sgR_eq]; exact permutationSign_sq _

theorem sgR_cases {α : Type _} (r : α → Int) (P : List α) : sgR r P = 1 ∨ sgR r P = -1 := by
  rw [sgR_eq]; exact permutationSign_cases _

/-- `-1` if `a`, `b` are ordered differently by `r` and by `r'` -/
def ordDiff {α : Type _} (r r' : α → Int) (a b : α) : Int := if (r b < r a ↔ r' b < r' a) then 1 else -1

theorem ordDiff_symm {α : Type _} {r r' : α → Int} {a b : α} (h : a ≠ b → r a ≠ r b) (h' : a ≠ b → r' a ≠ r' b) :
    ordDiff r r' a b = ordDiff r r' b a := by
  by_cases hab : a = b
  · rw [hab]
  · have h1 := h hab
    have h2 := h' hab
    unfold ordDiff
    congr 1
    apply propext
    constructor <;> intro h3 <;> omega

/-- comparison of two orders on the same list -/
theorem sgR_change {α : Type _} (r r' : α → Int) (P : List α) :
    sgR r' P = sgR r P * pairProd (ordDiff r r') P := by
  unfold sgR
  rw [← pairProd_mul]
  congr 1
  funext a b
  unfold ordDiff
  by_cases h1 : r b < r a <;> by_cases h2 : r' b < r' a <;> simp [h1, h2]

theorem sgR_map {α β : Type _} (r : β → Int) (g : α → β) (P : List α) : sgR r (P.map g) = sgR (fun a => r (g a)) P := by
  unfold sgR; rw [pairProd_map]

theorem sgR_append {α : Type _} (r : α → Int) (l m : List α) : sgR r (l ++ m) = sgR r l * sgR r m *
    (l.map (fun a => (m.map (fun b => if r b < r a then -1 else (1 : Int))).prod)).prod := pairProd_append _ _ _

theorem sgR_congr {α : Type _} {r r' : α → Int} {P : List α} (h : ∀ a ∈ P, ∀ b ∈ P, (r b < r a ↔ r' b < r' a)) : sgR r P = sgR r' P := by
  unfold sgR
  apply pairProd_congr
  rw [List.pairwise_iff_forall_sublist]
  intro a b hab
  have ha := hab.subset (show a ∈ [a, b] by simp)
  have hb := hab.subset (show b ∈ [a, b] by simp)
  simp only [h a ha b hb]

/-- reordering changes the sign by the relative sign, which depends on the two lists only through `r` -/
theorem sgR_perm_mul {α : Type _} {r r' : α → Int} {P Q : List α} (h : P.Perm Q)
    (hr : ∀ a ∈ P, ∀ b ∈ P, r a = r b → a = b) (hr' : ∀ a ∈ P, ∀ b ∈ P, r' a = r' b → a = b) :
    sgR r P * sgR r' P = sgR r Q * sgR r' Q := by
  have key := pairProd_perm (f := ordDiff r r') h (fun a ha b hb => ordDiff_symm (fun hn he => hn (hr a ha b hb he)) (fun hn he => hn (hr' a ha b hb he)))
  rw [sgR_change r r' P, sgR_change r r' Q, ← mul_assoc, ← mul_assoc, sgR_sq, sgR_sq, key]

theorem sgR_sorted {α : Type _} {r : α → Int} {P : List α} (h : P.Pairwise (fun a b => r a ≤ r b)) : sgR r P = 1 := by
  apply pairProd_one
  exact h.imp (fun hab => by rw [if_neg (by omega)])

end Wicked
