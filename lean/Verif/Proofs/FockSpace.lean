import Verif.Spec.FockSpace
import Verif.Spec.Projection
import Mathlib.Tactic.Ring
import Mathlib.Tactic.NoncommRing
namespace Wicked

theorem ring_add_zero {B : Type} [Ring B] {a b : B} (h : a + b = 0) : a = -b := eq_neg_of_add_eq_zero_left h
theorem ring_neg_neg {B : Type} [Ring B] (a : B) : a = - -a := (neg_neg a).symm

section
variable {Ω : Type} [LinearOrder Ω] {R : Type} [CommRing R]

theorem quasiAnn_single (x : Ω) (S : Finset Ω) (r : R) : quasiAnn R x (Finsupp.single S r) = if x ∈ S then Finsupp.single (S.erase x) (fockSign R x S * r) else 0 := by
  unfold quasiAnn
  rw [Finsupp.lsum_single]
  split_ifs
  · simp
  · rfl

theorem quasiCre_single (x : Ω) (S : Finset Ω) (r : R) : quasiCre R x (Finsupp.single S r) = if x ∈ S then 0 else Finsupp.single (insert x S) (fockSign R x S * r) := by
  unfold quasiCre
  rw [Finsupp.lsum_single]
  split_ifs
  · rfl
  · simp

theorem fockSign_insert {x : Ω} (y : Ω) {S : Finset Ω} (h : x ∉ S) : fockSign R y (insert x S) = (if x < y then -1 else 1) * fockSign R y S := by
  unfold fockSign
  rw [Finset.filter_insert]
  split_ifs with hlt
  · rw [Finset.card_insert_of_notMem (by simp [h]), pow_succ]; ring
  · rw [one_mul]

theorem fockSign_erase {x : Ω} (y : Ω) {S : Finset Ω} (h : x ∈ S) : fockSign R y (S.erase x) = (if x < y then -1 else 1) * fockSign R y S := by
  conv_rhs => rw [← Finset.insert_erase h]
  rw [fockSign_insert y (Finset.notMem_erase x S), ← mul_assoc]
  split_ifs <;> ring

theorem fockSign_sq (x : Ω) (S : Finset Ω) : fockSign R x S * fockSign R x S = 1 := by
  unfold fockSign
  rw [← pow_add, ← two_mul, pow_mul]; simp

theorem flip_sign {x y : Ω} (h : x ≠ y) : (if x < y then -1 else 1 : R) = -(if y < x then -1 else 1) := by
  rcases lt_or_gt_of_ne h with h | h
  · rw [if_pos h, if_neg h.asymm]
  · rw [if_neg h.asymm, if_pos h, neg_neg]

theorem end_ext {f g : Module.End R (FockSpace Ω R)} (h : ∀ S, f (Finsupp.single S 1) = g (Finsupp.single S 1)) : f = g := by
  apply Finsupp.lhom_ext'
  intro S
  apply LinearMap.ext_ring
  exact h S

theorem ann_ann (x y : Ω) : quasiAnn R x * quasiAnn R y = -(quasiAnn R y * quasiAnn R x) := by
  apply end_ext
  intro S
  rw [LinearMap.neg_apply, Module.End.mul_apply, Module.End.mul_apply, quasiAnn_single, quasiAnn_single]
  by_cases hxy : x = y
  · subst hxy
    split_ifs with h
    · rw [quasiAnn_single, if_neg (Finset.notMem_erase x S), neg_zero]
    · simp
  by_cases hx : x ∈ S
  · by_cases hy : y ∈ S
    · rw [if_pos hx, if_pos hy, quasiAnn_single, quasiAnn_single, if_pos (Finset.mem_erase.2 ⟨hxy, hx⟩), if_pos (Finset.mem_erase.2 ⟨Ne.symm hxy, hy⟩), fockSign_erase x hy, fockSign_erase y hx,
        Finset.erase_right_comm, ← Finsupp.single_neg, flip_sign hxy]
      congr 1
      ring
    · rw [if_pos hx, if_neg hy, quasiAnn_single, if_neg (fun h => hy (Finset.mem_of_mem_erase h)), map_zero, neg_zero]
  · by_cases hy : y ∈ S
    · rw [if_neg hx, if_pos hy, quasiAnn_single, if_neg (fun h => hx (Finset.mem_of_mem_erase h)), map_zero, neg_zero]
    · rw [if_neg hx, if_neg hy, map_zero, map_zero, neg_zero]

theorem cre_cre (x y : Ω) : quasiCre R x * quasiCre R y = -(quasiCre R y * quasiCre R x) := by
  apply end_ext
  intro S
  rw [LinearMap.neg_apply, Module.End.mul_apply, Module.End.mul_apply, quasiCre_single, quasiCre_single]
  by_cases hxy : x = y
  · subst hxy
    split_ifs with h
    · simp
    · rw [quasiCre_single, if_pos (Finset.mem_insert_self x S), neg_zero]
  by_cases hx : x ∈ S
  · by_cases hy : y ∈ S
    · rw [if_pos hx, if_pos hy, map_zero, map_zero, neg_zero]
    · rw [if_pos hx, if_neg hy, quasiCre_single, if_pos (Finset.mem_insert_of_mem hx), map_zero, neg_zero]
  · by_cases hy : y ∈ S
    · rw [if_neg hx, if_pos hy, quasiCre_single, if_pos (Finset.mem_insert_of_mem hy), map_zero, neg_zero]
    · have h1 : x ∉ insert y S := by simp [hxy, hx]
      have h2 : y ∉ insert x S := by simp [Ne.symm hxy, hy]
      rw [if_neg hx, if_neg hy, quasiCre_single, quasiCre_single, if_neg h1, if_neg h2, fockSign_insert x hy, fockSign_insert y hx,
        Finset.insert_comm, ← Finsupp.single_neg, flip_sign hxy]
      congr 1
      ring

theorem ann_cre (x y : Ω) : quasiAnn R x * quasiCre R y + quasiCre R y * quasiAnn R x = if x = y then 1 else 0 := by
  apply end_ext
  intro S
  rw [LinearMap.add_apply, Module.End.mul_apply, Module.End.mul_apply, quasiCre_single, quasiAnn_single]
  by_cases hxy : x = y
  · subst hxy
    rw [if_pos rfl, Module.End.one_apply]
    by_cases hx : x ∈ S
    · rw [if_pos hx, if_pos hx, map_zero, zero_add, quasiCre_single, if_neg (Finset.notMem_erase x S), Finset.insert_erase hx, fockSign_erase x hx, if_neg (lt_irrefl x), one_mul, mul_one, fockSign_sq]
    · rw [if_neg hx, if_neg hx, map_zero, add_zero, quasiAnn_single, if_pos (Finset.mem_insert_self x S), Finset.erase_insert hx, fockSign_insert x hx, if_neg (lt_irrefl x), one_mul, mul_one, fockSign_sq]
  · rw [if_neg hxy, LinearMap.zero_apply]
    by_cases hx : x ∈ S
    · by_cases hy : y ∈ S
      · rw [if_pos hx, if_pos hy, map_zero, zero_add, quasiCre_single, if_pos (Finset.mem_erase.2 ⟨Ne.symm hxy, hy⟩)]
      · have h2 : y ∉ S.erase x := fun h => hy (Finset.mem_of_mem_erase h)
        rw [if_pos hx, if_neg hy, quasiAnn_single, if_pos (Finset.mem_insert_of_mem hx), quasiCre_single, if_neg h2, fockSign_insert x hy, fockSign_erase y hx,
          Finset.erase_insert_of_ne (Ne.symm hxy), ← Finsupp.single_add, flip_sign hxy, ← Finsupp.single_zero]
        congr 1
        ring
    · by_cases hy : y ∈ S
      · rw [if_neg hx, if_pos hy, map_zero, map_zero, add_zero]
      · rw [if_neg hx, if_neg hy, map_zero, add_zero, quasiAnn_single, if_neg (by simp [hxy, hx])]

theorem cre_ann_ne {x y : Ω} (h : x ≠ y) : quasiCre R x * quasiAnn R y = -(quasiAnn R y * quasiCre R x) := by
  have := ann_cre (R := R) y x
  rw [if_neg (Ne.symm h), add_comm] at this
  exact ring_add_zero (B := Module.End R (FockSpace Ω R)) this

theorem fock_car (hole : Ω → Bool) : IsCAR (fockOp R hole) := by
  constructor
  · intro s x y
    have hxy : hole x ≠ hole y → x ≠ y := fun h e => h (by rw [e])
    cases s <;> cases hx : hole x <;> cases hy : hole y <;> simp only [fockOp, hx, hy, if_true, Bool.false_eq_true, if_false]
    · exact cre_cre x y
    · exact cre_ann_ne (hxy (by simp [hx, hy]))
    · rw [cre_ann_ne (Ne.symm (hxy (by simp [hx, hy])))]; exact ring_neg_neg (B := Module.End R (FockSpace Ω R)) _
    · exact ann_ann x y
    · exact ann_ann x y
    · rw [cre_ann_ne (Ne.symm (hxy (by simp [hx, hy])))]; exact ring_neg_neg (B := Module.End R (FockSpace Ω R)) _
    · exact cre_ann_ne (hxy (by simp [hx, hy]))
    · exact cre_cre x y
  · intro x y
    have hxy : hole x ≠ hole y → x ≠ y := fun h e => h (by rw [e])
    cases hx : hole x <;> cases hy : hole y <;> simp only [fockOp, hx, hy, if_true, Bool.false_eq_true, if_false]
    · exact ann_cre x y
    · rw [if_neg (hxy (by simp [hx, hy])), ann_ann x y]; exact neg_add_cancel (G := Module.End R (FockSpace Ω R)) _
    · rw [if_neg (hxy (by simp [hx, hy])), cre_cre x y]; exact neg_add_cancel (G := Module.End R (FockSpace Ω R)) _
    · rw [add_comm, ann_cre y x]
      simp [eq_comm]

theorem quasiAnn_vacuum (x : Ω) : quasiAnn R x (fockVacuum R) = 0 := by
  rw [fockVacuum, quasiAnn_single, if_neg (Finset.notMem_empty x)]

theorem quasiCre_coeff (x : Ω) (f : FockSpace Ω R) (S : Finset Ω) (h : x ∉ S) : (quasiCre R x f) S = 0 := by
  induction f using Finsupp.induction_linear with
  | zero => simp
  | add f g hf hg => rw [map_add, Finsupp.add_apply, hf, hg, add_zero]
  | single S' r =>
    rw [quasiCre_single]
    split_ifs
    · rfl
    · rw [Finsupp.single_apply, if_neg]
      intro e
      exact h (e ▸ Finset.mem_insert_self x S')

theorem fock_expectation (hole : Ω → Bool) : IsVacuumExpectation (fockOp R hole) hole (fockExpectation R) := by
  refine ⟨by simp [fockExpectation, fockVacuum], ?_, ?_⟩
  · intro b s x h
    have : fockOp R hole s x = quasiAnn R x := by
      cases s
      · simp only [kills] at h; simp [fockOp, h]
      · simp only [kills, Bool.not_eq_true'] at h; simp [fockOp, h]
    show (b * fockOp R hole s x) (fockVacuum R) ∅ = 0
    rw [this, Module.End.mul_apply, quasiAnn_vacuum, map_zero]; rfl
  · intro b s x h
    have : fockOp R hole s x = quasiCre R x := by
      cases s
      · simp only [kills] at h; simp [fockOp, h]
      · simp only [kills, Bool.not_eq_false'] at h; simp [fockOp, h]
    show (fockOp R hole s x * b) (fockVacuum R) ∅ = 0
    rw [this, Module.End.mul_apply]
    exact quasiCre_coeff x _ ∅ (Finset.notMem_empty x)

theorem quasiAnn_coeff (x : Ω) (f : FockSpace Ω R) (S : Finset Ω) : (quasiAnn R x f) S = if x ∈ S then 0 else fockSign R x S * f (insert x S) := by
  induction f using Finsupp.induction_linear with
  | zero => simp
  | add f g hf hg =>
    rw [map_add, Finsupp.add_apply, hf, hg]
    split_ifs
    · rw [add_zero]
    · rw [Finsupp.add_apply, mul_add]
  | single S' r =>
    rw [quasiAnn_single]
    by_cases h' : x ∈ S'
    · rw [if_pos h']
      by_cases h : x ∈ S
      · rw [if_pos h, Finsupp.single_apply, if_neg]
        intro e
        exact Finset.notMem_erase x S' (e ▸ h)
      · rw [if_neg h, Finsupp.single_apply, Finsupp.single_apply]
        by_cases e : S' = insert x S
        · subst e
          rw [if_pos rfl, if_pos (Finset.erase_insert h), fockSign_insert x h, if_neg (lt_irrefl x), one_mul]
        · rw [if_neg e, if_neg, mul_zero]
          intro e'
          exact e (by rw [← e', Finset.insert_erase h'])
    · rw [if_neg h', Finsupp.zero_apply]
      split_ifs with h
      · rfl
      · rw [Finsupp.single_apply, if_neg, mul_zero]
        intro e
        exact h' (e ▸ Finset.mem_insert_self x S)

/-- taking the orbitals of a word out of a state reads off a coefficient, up to sign -/
theorem quasiAnn_word : ∀ (w : List Ω) (S : Finset Ω), w.Nodup → (∀ x ∈ w, x ∉ S) →
    ∃ ε : R, (ε = 1 ∨ ε = -1) ∧ ∀ f : FockSpace Ω R, ((w.map (quasiAnn R)).prod f) S = ε * f (S ∪ w.toFinset)
  | [], S, _, _ => ⟨1, .inl rfl, fun f => by simp⟩
  | x :: w, S, hn, hd => by
    obtain ⟨hx, hn⟩ := List.nodup_cons.1 hn
    have hxS := hd x (by simp)
    obtain ⟨ε, hε, h⟩ := quasiAnn_word w (insert x S) hn (fun y hy h => by
      rcases Finset.mem_insert.1 h with rfl | h
      · exact hx hy
      · exact hd y (by simp [hy]) h)
    refine ⟨fockSign R x S * ε, ?_, fun f => ?_⟩
    · have : fockSign R x S = 1 ∨ fockSign R x S = -1 := neg_one_pow_eq_or R _
      rcases this with e | e <;> rcases hε with e' | e' <;> rw [e, e'] <;> simp
    · rw [List.map_cons, List.prod_cons, Module.End.mul_apply, quasiAnn_coeff, if_neg hxS, h, ← mul_assoc, List.toFinset_cons, Finset.insert_union, Finset.union_insert]

theorem bra_fock {hole : Ω → Bool} {u l : List Ω} (hu : ∀ x ∈ u, hole x = true) (hl : ∀ x ∈ l, hole x = false) :
    bra (fockOp R hole) u l = ((u ++ l.reverse).map (quasiAnn R)).prod := by
  unfold bra
  rw [List.map_append, List.prod_append]
  congr 2
  · apply List.map_congr_left
    intro x hx
    simp [fockOp, hu x hx]
  · apply List.map_congr_left
    intro x hx
    simp [fockOp, hl x (List.mem_reverse.1 hx)]

/-- the projection on the excited determinant is, up to sign, the coefficient of the determinant -/
theorem expectation_bra {hole : Ω → Bool} {u l : List Ω} (hu : ∀ x ∈ u, hole x = true) (hl : ∀ x ∈ l, hole x = false) (hnu : u.Nodup) (hnl : l.Nodup) :
    ∃ ε : R, (ε = 1 ∨ ε = -1) ∧ ∀ W : Module.End R (FockSpace Ω R), fockExpectation R (bra (fockOp R hole) u l * W) = ε * W (fockVacuum R) (u.toFinset ∪ l.toFinset) := by
  have hn : (u ++ l.reverse).Nodup := by
    rw [List.nodup_append]
    refine ⟨hnu, List.nodup_reverse.2 hnl, fun x hx y hy e => ?_⟩
    subst e
    have h1 := hu x hx
    have h2 := hl x (List.mem_reverse.1 hy)
    rw [h1] at h2
    cases h2
  obtain ⟨ε, hε, h⟩ := quasiAnn_word (R := R) (u ++ l.reverse) ∅ hn (by simp)
  refine ⟨ε, hε, fun W => ?_⟩
  show (bra (fockOp R hole) u l * W) (fockVacuum R) ∅ = _
  rw [bra_fock hu hl, Module.End.mul_apply, h, Finset.empty_union, List.toFinset_append, List.toFinset_reverse]

/-- the adjoint of an excitation annihilates the vacuum -/
theorem bra_vacuum {hole : Ω → Bool} {u l : List Ω} (hu : ∀ x ∈ u, hole x = true) (hl : ∀ x ∈ l, hole x = false) (hne : ¬ (u = [] ∧ l = [])) :
    bra (fockOp R hole) u l (fockVacuum R) = 0 := by
  rw [bra_fock hu hl]
  rcases List.eq_nil_or_concat (u ++ l.reverse) with h | ⟨w, x, h⟩
  · exact absurd (by simpa using h) hne
  · rw [h, List.concat_eq_append, List.map_append, List.prod_append, Module.End.mul_apply, List.map_singleton, List.prod_singleton, quasiAnn_vacuum, map_zero]

/-- a state whose coefficients vanish on all determinants but the vacuum is a multiple of the vacuum -/
theorem eq_vacuum {f : FockSpace Ω R} (h : ∀ S, S ≠ ∅ → f S = 0) : f = f ∅ • fockVacuum R := by
  ext S
  rw [fockVacuum, Finsupp.smul_apply, Finsupp.single_apply]
  split_ifs with e
  · subst e; simp
  · rw [h S (Ne.symm e)]; simp
end
end Wicked
