import Verif.Proofs.Listing
import Verif.Proofs.PairSign
/-! The order of the second-quantized operators of a product -/
namespace Wicked
namespace Slot

/-- `x` stands to the left of `y` in a product -/
def Bef (x y : Slot) : Prop :=
  x.op < y.op ∨ (x.op = y.op ∧
    ((x.cre = true ∧ y.cre = false) ∨
     (x.cre = true ∧ y.cre = true ∧ (x.space < y.space ∨ (x.space = y.space ∧ x.k < y.k))) ∨
     (x.cre = false ∧ y.cre = false ∧ (y.space < x.space ∨ (x.space = y.space ∧ y.k < x.k)))))

theorem bef_irrefl (x : Slot) : ¬ Bef x x := by unfold Bef; cases x.cre <;> simp

theorem bef_asymm {x y : Slot} (h : Bef x y) : ¬ Bef y x := by
  unfold Bef at *
  intro h'
  cases hx : x.cre <;> cases hy : y.cre <;> simp [hx, hy] at h h' <;> omega

/-- the kind of an operator: which operator it belongs to, its space, creation or annihilation -/
def cls (x : Slot) : Nat × Nat × Bool := (x.op, x.space, x.cre)

/-- operators of different kinds: the order depends on the kinds only -/
theorem bef_cls {x y x' y' : Slot} (hx : x.cls = x'.cls) (hy : y.cls = y'.cls) (h : x.cls ≠ y.cls) : Bef x y ↔ Bef x' y' := by
  unfold cls at *
  simp only [Prod.mk.injEq] at hx hy
  obtain ⟨h1, h2, h3⟩ := hx
  obtain ⟨g1, g2, g3⟩ := hy
  unfold Bef
  rw [← h1, ← h2, ← h3, ← g1, ← g2, ← g3]
  by_cases ho : x.op = y.op
  · have : x.cre = y.cre → x.space ≠ y.space := by
      intro hc hs; exact h (by rw [ho, hs, hc])
    cases hxc : x.cre <;> cases hyc : y.cre <;> simp [ho, hxc, hyc] at this ⊢ <;> omega
  · omega

end Slot

theorem flat_bef (ns : Nat) (R : Slot → Slot → Prop) (n : Nat → Nat) (mk : Nat → Nat → Slot)
    (h1 : ∀ s k k', k < k' → R (mk s k) (mk s k')) (h2 : ∀ s s' k k', s < s' → R (mk s k) (mk s' k')) :
    ((List.range ns).flatMap (fun s => (List.range (n s)).map (mk s))).Pairwise R := by
  rw [List.pairwise_flatMap]
  constructor
  · intro s _
    rw [List.pairwise_map]
    exact List.pairwise_lt_range.imp (fun {a b} hab => h1 s a b hab)
  · refine List.pairwise_lt_range.imp ?_
    intro s s' hs x hx y hy
    obtain ⟨k, _, rfl⟩ := List.mem_map.1 hx
    obtain ⟨k', _, rfl⟩ := List.mem_map.1 hy
    exact h2 s s' k k' hs

theorem opSlots_bef (ns o : Nat) (p : Operator) : (opSlots ns o p).Pairwise Slot.Bef := by
  unfold opSlots
  rw [List.pairwise_append]
  refine ⟨?_, ?_, ?_⟩
  · refine flat_bef ns _ _ (fun s k => ⟨o, s, true, k⟩) ?_ ?_
    · intro s k k' h; right; refine ⟨rfl, Or.inr (Or.inl ⟨rfl, rfl, Or.inr ⟨rfl, h⟩⟩)⟩
    · intro s s' k k' h; right; refine ⟨rfl, Or.inr (Or.inl ⟨rfl, rfl, Or.inl h⟩)⟩
  · rw [List.pairwise_reverse]
    refine flat_bef ns _ _ (fun s k => ⟨o, s, false, k⟩) ?_ ?_
    · intro s k k' h; right; refine ⟨rfl, Or.inr (Or.inr ⟨rfl, rfl, Or.inr ⟨rfl, h⟩⟩)⟩
    · intro s s' k k' h; right; refine ⟨rfl, Or.inr (Or.inr ⟨rfl, rfl, Or.inl h⟩)⟩
  · intro x hx y hy
    have h1 := mem_creSlots.1 hx
    have h2 := mem_annSlots.1 (List.mem_reverse.1 hy)
    right
    exact ⟨h1.1.trans h2.1.symm, Or.inl ⟨h1.2.2.1, h2.2.2.1⟩⟩

theorem slotsFrom_op {ns : Nat} {ops : OperatorProduct} : ∀ {o : Nat} {x : Slot}, x ∈ slotsFrom ns o ops → o ≤ x.op := by
  induction ops with
  | nil => intro o x h; cases h
  | cons p ops ih =>
    intro o x h
    rw [slotsFrom] at h
    rcases List.mem_append.1 h with h | h
    · have := mem_opSlots.1 h; omega
    · have := ih h; omega

theorem slotsFrom_bef (ns : Nat) (ops : OperatorProduct) : ∀ o, (slotsFrom ns o ops).Pairwise Slot.Bef := by
  induction ops with
  | nil => intro o; exact List.Pairwise.nil
  | cons p ops ih =>
    intro o
    rw [slotsFrom, List.pairwise_append]
    refine ⟨opSlots_bef ns o p, ih _, ?_⟩
    intro x hx y hy
    have h1 := mem_opSlots.1 hx
    have h2 := slotsFrom_op hy
    left
    omega

theorem slots_bef (ns : Nat) (ops : OperatorProduct) : (slots ns ops).Pairwise Slot.Bef := slotsFrom_bef ns ops 0

open Wick

theorem idxOf_lt_of_pairwise {α : Type _} [DecidableEq α] {R : α → α → Prop} {l : List α} (h : l.Pairwise R) (hn : l.Nodup) {a b : α}
    (ha : a ∈ l) (hb : b ∈ l) (hab : l.idxOf a < l.idxOf b) : R a b := by
  have h1 := List.idxOf_lt_length_of_mem ha
  have h2 := List.idxOf_lt_length_of_mem hb
  have := List.pairwise_iff_getElem.1 h _ _ h1 h2 hab
  rwa [List.getElem_idxOf, List.getElem_idxOf] at this

/-- positions and order -/
theorem posZ_bef {ns : Nat} {ops : OperatorProduct} {x y : Slot} (hx : x ∈ slots ns ops) (hy : y ∈ slots ns ops) :
    posZ (slots ns ops) x < posZ (slots ns ops) y ↔ Slot.Bef x y := by
  unfold posZ
  have hn := nodup_slots ns ops
  constructor
  · intro h
    exact idxOf_lt_of_pairwise (slots_bef ns ops) hn hx hy (by omega)
  · intro h
    by_contra hc
    have h1 : (slots ns ops).idxOf y ≤ (slots ns ops).idxOf x := by omega
    rcases Nat.lt_or_eq_of_le h1 with h2 | h2
    · exact Slot.bef_asymm h (idxOf_lt_of_pairwise (slots_bef ns ops) hn hy hx h2)
    · have := (List.idxOf_inj hy).1 h2
      subst this
      exact Slot.bef_irrefl _ h

theorem posZ_inj {L : List Slot} {x y : Slot} (hx : x ∈ L) (h : posZ L x = posZ L y) : x = y := by
  unfold posZ at h
  exact (List.idxOf_inj hx).1 (by omega)

theorem posZ_sorted {L : List Slot} (hn : L.Nodup) : L.Pairwise (fun a b => posZ L a ≤ posZ L b) := by
  rw [List.pairwise_iff_getElem]
  intro i j hi hj hij
  unfold posZ
  rw [hn.idxOf_getElem, hn.idxOf_getElem]
  omega

/-- the code numbers the operators of the original order by their places in the listing; the sign is that
of the listing relative to the original order -/
theorem sign_inverse {L P : List Slot} (hn : L.Nodup) (h : P.Perm L) :
    permutationSign (L.map (posZ P)) = sgR (posZ L) P := by
  have hP : P.Nodup := h.nodup_iff.2 hn
  have key := sgR_perm_mul (r := posZ L) (r' := posZ P) h (fun a ha b hb e => posZ_inj (h.mem_iff.1 ha) e) (fun a ha b hb e => posZ_inj ha e)
  rw [sgR_sorted (posZ_sorted hn), sgR_sorted (posZ_sorted hP), one_mul, mul_one] at key
  rw [← sgR_eq, ← key]

end Wicked
