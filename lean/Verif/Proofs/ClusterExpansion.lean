import Verif.Proofs.NotebookKeys
import Verif.Proofs.FockCharge
import Mathlib.Algebra.Module.Rat
/-! # Every state is the exponential of a cluster operator, applied to the vacuum -/
namespace Wicked
namespace Wick
open Equiv

section
variable {Ω R B : Type} [Inhabited Ω] [DecidableEq Ω] [CommRing R] [Algebra ℚ R] [Ring B] [Algebra R B] [Algebra ℚ B] {op : SQType → Ω → B} {hole : Ω → Bool}

/-- antisymmetric amplitudes are the matrix elements of the cluster operator -/
theorem amplitude_element (hcar : IsCAR op) {φ : B →ₗ[R] R} (hφ : IsVacuumExpectation op hole φ) {V O : Finset Ω} (hV : ∀ x, x ∈ V ↔ hole x = false) (hO : ∀ x, x ∈ O ↔ hole x = true)
    {t : List Ω → List Ω → R} (h1 : ∀ u, Alternates (fun l => t l u)) (h2 : ∀ l, Alternates (t l)) {u l : List Ω} (hu : ∀ x ∈ u, hole x = true) (hl : ∀ x ∈ l, hole x = false) (hul : l.length = u.length) :
    φ (bra op u l * manyBody t (normalProd hole op) u.length V O) = t l u := by
  have hb : ∀ p q : Fin u.length → Ω, φ (bra op u l * normalProd hole op ((List.ofFn p).map (fun x => (SQType.creation, x)) ++ ((List.ofFn q).map (fun x => (SQType.annihilation, x))).reverse)) =
      coincidences R u (List.ofFn q) * coincidences R l (List.ofFn p) := by
    intro p q
    rw [← List.map_reverse]
    exact braket hcar hφ hu hl _ _
  unfold manyBody
  rw [mul_smul_comm, map_rat_smul, Finset.mul_sum, map_sum]
  have e : ∀ p ∈ Fintype.piFinset (fun _ : Fin u.length => V), φ (bra op u l * ∑ q ∈ Fintype.piFinset (fun _ : Fin u.length => O), t (List.ofFn p) (List.ofFn q) •
      normalProd hole op ((List.ofFn p).map (fun x => (SQType.creation, x)) ++ ((List.ofFn q).map (fun x => (SQType.annihilation, x))).reverse)) =
      t (List.ofFn p) u * coincidences R l (List.ofFn p) * u.length.factorial := by
    intro p _
    rw [Finset.mul_sum, map_sum, mul_right_comm, mul_comm (t _ u), ← sum_coincidences (R := R) (h2 (List.ofFn p)) (D := O) (fun x hx => (hO x).2 (hu x hx)), Finset.sum_mul]
    refine Finset.sum_congr rfl (fun q _ => ?_)
    rw [mul_smul_comm, map_smul, hb, smul_eq_mul]
    ring
  rw [Finset.sum_congr rfl e, ← Finset.sum_mul]
  have h := sum_coincidences (R := R) (h1 u) (D := V) (l := l) (fun x hx => (hV x).2 (hl x hx))
  rw [hul] at h
  rw [h]
  have hq : ∀ (k : Nat) (y : R), (k : R) * y = (k : ℚ) • y := by
    intro k y
    rw [Algebra.smul_def, map_natCast]
  rw [mul_comm _ (u.length.factorial : R), hq, hq, smul_smul, smul_smul]
  have := Nat.factorial_ne_zero u.length
  have e1 : (1 : ℚ) / (u.length.factorial * u.length.factorial) * u.length.factorial * u.length.factorial = 1 := by field_simp
  rw [e1, one_smul]

omit [Inhabited Ω] [Algebra ℚ R] [Algebra ℚ B] [CommRing R] [Algebra R B] in
theorem bra_upper (hcar : IsCAR op) (xs : List Ω) (a b : Ω) (ys l : List Ω) : bra op (xs ++ a :: b :: ys) l = - bra op (xs ++ b :: a :: ys) l := by
  unfold bra
  simp only [List.map_append, List.map_cons, List.prod_append, List.prod_cons]
  rw [← mul_assoc (op .creation a), hcar.same .creation a b]
  simp only [neg_mul, mul_neg, mul_assoc]

omit [Inhabited Ω] [Algebra ℚ R] [Algebra ℚ B] [CommRing R] [Algebra R B] in
theorem bra_lower (hcar : IsCAR op) (xs : List Ω) (a b : Ω) (ys u : List Ω) : bra op u (xs ++ a :: b :: ys) = - bra op u (xs ++ b :: a :: ys) := by
  unfold bra
  simp only [List.reverse_append, List.reverse_cons, List.map_append, List.map_cons, List.prod_append, List.prod_cons, List.map_nil, List.prod_nil, mul_one]
  have h := hcar.same .annihilation b a
  rw [mul_assoc _ (op .annihilation b) (op .annihilation a), h]
  simp only [neg_mul, mul_neg, mul_assoc]
end

section
variable {Ω : Type} [LinearOrder Ω] {R : Type} [CommRing R]

theorem quasiCre_coeff_mem (x : Ω) (f : FockSpace Ω R) (S : Finset Ω) (h : x ∈ S) : (quasiCre R x f) S = fockSign R x (S.erase x) * f (S.erase x) := by
  induction f using Finsupp.induction_linear with
  | zero => simp
  | add f g hf hg => rw [map_add, Finsupp.add_apply, hf, hg, Finsupp.add_apply, mul_add]
  | single S' r =>
    rw [quasiCre_single]
    split_ifs with h'
    · rw [Finsupp.single_apply, if_neg, mul_zero]; rfl
      intro e
      rw [e] at h'
      exact Finset.notMem_erase x S h'
    · rw [Finsupp.single_apply, Finsupp.single_apply]
      by_cases e : S' = S.erase x
      · rw [if_pos e, if_pos (by rw [e, Finset.insert_erase h]), e]
      · rw [if_neg e, if_neg, mul_zero]
        intro e'
        apply e
        rw [← e', Finset.erase_insert h']

theorem word_coeff {hole : Ω → Bool} : ∀ (w : List (SQType × Ω)), (∀ m ∈ w, kills hole m = false) → ∀ S : Finset Ω, S.card < w.length →
    (w.map (fun m => fockOp R hole m.1 m.2)).prod (fockVacuum R) S = 0
  | [], _, S, h => by simp at h
  | m :: w, hw, S, h => by
    rw [List.map_cons, List.prod_cons, Module.End.mul_apply]
    have hm : fockOp R hole m.1 m.2 = quasiCre R m.2 := by
      have := hw m (by simp)
      obtain ⟨s, x⟩ := m
      cases s
      · simp only [kills] at this; simp [fockOp, this]
      · simp only [kills, Bool.not_eq_false'] at this; simp [fockOp, this]
    rw [hm]
    by_cases hx : m.2 ∈ S
    · rw [quasiCre_coeff_mem _ _ _ hx, word_coeff w (fun n hn => hw n (by simp [hn])), mul_zero]
      rw [Finset.card_erase_of_mem hx]
      have := Finset.card_pos.2 ⟨_, hx⟩
      rw [List.length_cons] at h
      omega
    · exact quasiCre_coeff _ _ _ hx

theorem wordSpan_coeff {hole : Ω → Bool} {M : Finset (SQType × Ω)} (hM : ∀ m ∈ M, kills hole m = false) {k : Nat} {W : Module.End R (FockSpace Ω R)}
    (hW : W ∈ wordSpan R (fockOp R hole) M k) {S : Finset Ω} (h : S.card < k) : W (fockVacuum R) S = 0 := by
  induction hW using Submodule.span_induction with
  | mem a ha =>
    obtain ⟨w, h1, _, h3, rfl⟩ := ha
    exact word_coeff w (fun m hm => hM m (h1 m hm)) S (by omega)
  | zero => rfl
  | add x y _ _ hx hy => rw [LinearMap.add_apply, Finsupp.add_apply, hx, hy, add_zero]
  | smul r x _ hx => rw [LinearMap.smul_apply, Finsupp.smul_apply, hx, smul_zero]
end

section
variable {Ω : Type} [Inhabited Ω] [Fintype Ω] [LinearOrder Ω] {R : Type} [CommRing R] [Algebra ℚ R]

theorem wordSpan_qsmul {hole : Ω → Bool} {M : Finset (SQType × Ω)} {k : Nat} (q : ℚ) {a : Module.End R (FockSpace Ω R)} (ha : a ∈ wordSpan R (fockOp R hole) M k) : q • a ∈ wordSpan R (fockOp R hole) M k := by
  rw [← algebraMap_smul R q a]
  exact Submodule.smul_mem _ _ ha

/-- the operators that do not annihilate the vacuum -/
def goodModes (hole : Ω → Bool) : Finset (SQType × Ω) := Finset.univ.image (fun x => (if hole x then .annihilation else .creation, x))

theorem goodModes_good {hole : Ω → Bool} : ∀ m ∈ goodModes hole, kills hole m = false := by
  intro m hm
  obtain ⟨x, _, rfl⟩ := Finset.mem_image.1 hm
  cases h : hole x <;> simp [kills, h]

theorem mem_goodModes {hole : Ω → Bool} (m : SQType × Ω) (h : kills hole m = false) : m ∈ goodModes hole := by
  obtain ⟨s, x⟩ := m
  refine Finset.mem_image.2 ⟨x, Finset.mem_univ _, ?_⟩
  cases s
  · simp only [kills] at h; simp [h]
  · simp only [kills, Bool.not_eq_false'] at h; simp [h]

theorem manyBody_wordSpan {hole : Ω → Bool} (t : List Ω → List Ω → R) (n : Nat) :
    manyBody t (normalProd hole (fockOp R hole)) n (Finset.univ.filter (fun x => hole x = false)) (Finset.univ.filter (fun x => hole x = true)) ∈ wordSpan R (fockOp R hole) (goodModes hole) (2 * n) := by
  unfold manyBody
  refine wordSpan_qsmul _ (Submodule.sum_mem _ (fun p hp => Submodule.sum_mem _ (fun q hq => Submodule.smul_mem _ _ (Submodule.subset_span ?_))))
  have hg := excWord_good (hole := hole) (fun i => (Finset.mem_filter.1 (Fintype.mem_piFinset.1 hp i)).2) (fun i => (Finset.mem_filter.1 (Fintype.mem_piFinset.1 hq i)).2)
  have hlen : (excWord p q).length = 2 * n := by simp [excWord]; omega
  exact ⟨excWord p q, fun m hm => mem_goodModes m (hg m hm), by rw [hlen]; exact even_two_mul n, le_of_eq hlen.symm, normalProd_good hg⟩

theorem wordSpan_one {hole : Ω → Bool} {M : Finset (SQType × Ω)} : (1 : Module.End R (FockSpace Ω R)) ∈ wordSpan R (fockOp R hole) M 0 :=
  Submodule.subset_span ⟨[], by simp, by simp, le_refl _, rfl⟩

theorem wordSpan_pow' {hole : Ω → Bool} {M : Finset (SQType × Ω)} {k : Nat} {a : Module.End R (FockSpace Ω R)} (ha : a ∈ wordSpan R (fockOp R hole) M k) : ∀ n, a ^ n ∈ wordSpan R (fockOp R hole) M (n * k)
  | 0 => by rw [pow_zero, zero_mul]; exact wordSpan_one
  | n + 1 => by rw [pow_succ, Nat.succ_mul]; exact wordSpan_mul (wordSpan_pow' ha n) ha

theorem exp_parts {hole : Ω → Bool} {k : Nat} (hk : 1 ≤ k) {a : Module.End R (FockSpace Ω R)} (ha : a ∈ wordSpan R (fockOp R hole) (goodModes hole) k) :
    ∃ r ∈ wordSpan R (fockOp R hole) (goodModes hole) (2 * k), IsNilpotent.exp a = 1 + a + r := by
  obtain ⟨N, hN⟩ := excitation_nilpotent (fock_car hole) goodModes_good (wordSpan_mono hk ha)
  have h2 : a ^ (N + 2) = 0 := by rw [pow_add, hN, zero_mul]
  refine ⟨∑ i ∈ Finset.range N, ((i + 2).factorial : ℚ)⁻¹ • a ^ (i + 2), Submodule.sum_mem _ (fun i _ => wordSpan_qsmul _ (wordSpan_mono (by nlinarith) (wordSpan_pow' ha (i + 2)))), ?_⟩
  rw [IsNilpotent.exp_eq_sum h2, Finset.sum_range_succ', Finset.sum_range_succ']
  simp
  abel

theorem exp_step {hole : Ω → Bool} {k : Nat} (hk : 1 ≤ k) {T X : Module.End R (FockSpace Ω R)} (hT : T ∈ wordSpan R (fockOp R hole) (goodModes hole) 1) (hX : X ∈ wordSpan R (fockOp R hole) (goodModes hole) k)
    (hXc : X ∈ creators R (fockOp R hole) hole) {S : Finset Ω} (hS : S.card ≤ k) :
    IsNilpotent.exp (T + X) (fockVacuum R) S = IsNilpotent.exp T (fockVacuum R) S + X (fockVacuum R) S := by
  have hc : Commute T X := (wordSpan_commute (fock_car hole) goodModes_good hT hXc).symm
  rw [IsNilpotent.exp_add_of_commute hc (excitation_nilpotent (fock_car hole) goodModes_good hT) (excitation_nilpotent (fock_car hole) goodModes_good (wordSpan_mono hk hX))]
  obtain ⟨r, hr, eT⟩ := exp_parts (le_refl 1) hT
  obtain ⟨r', hr', eX⟩ := exp_parts hk hX
  have e : IsNilpotent.exp T * IsNilpotent.exp X = IsNilpotent.exp T + X + (T * X + r * X + IsNilpotent.exp T * r') := by
    rw [eX, mul_add, mul_add, mul_one]
    conv_lhs => rw [eT]
    conv_rhs => rw [eT]
    noncomm_ring
  have h0 : IsNilpotent.exp T ∈ wordSpan R (fockOp R hole) (goodModes hole) 0 := by
    rw [eT]
    exact Submodule.add_mem _ (Submodule.add_mem _ wordSpan_one (wordSpan_mono (by omega) hT)) (wordSpan_mono (by omega) hr)
  have hz : T * X + r * X + IsNilpotent.exp T * r' ∈ wordSpan R (fockOp R hole) (goodModes hole) (k + 1) := by
    refine Submodule.add_mem _ (Submodule.add_mem _ ?_ ?_) ?_
    · exact wordSpan_mono (by omega) (wordSpan_mul hT hX)
    · exact wordSpan_mono (by omega) (wordSpan_mul hr hX)
    · exact wordSpan_mono (by omega) (wordSpan_mul h0 hr')
  rw [e, LinearMap.add_apply, LinearMap.add_apply, Finsupp.add_apply, Finsupp.add_apply, wordSpan_coeff goodModes_good hz (by omega), add_zero]

theorem creators_of_wordSpan {hole : Ω → Bool} {M : Finset (SQType × Ω)} (hM : ∀ m ∈ M, kills hole m = false) {k : Nat} {a : Module.End R (FockSpace Ω R)} (ha : a ∈ wordSpan R (fockOp R hole) M k) :
    a ∈ creators R (fockOp R hole) hole := by
  induction ha using Submodule.span_induction with
  | mem a ha =>
    obtain ⟨w, h1, _, h3, rfl⟩ := ha
    exact creators_word (fun n hn => hM n (h1 n hn))
  | zero => exact zero_mem _
  | add x y _ _ hx hy => exact add_mem hx hy
  | smul r x _ hx => exact Subalgebra.smul_mem _ hx r

theorem split_holes (hole : Ω → Bool) (S : Finset Ω) : S.filter (fun x => hole x = true) ∪ S.filter (fun x => hole x = false) = S := by
  ext x
  simp only [Finset.mem_union, Finset.mem_filter]
  cases hole x <;> simp

theorem card_holes (hole : Ω → Bool) (S : Finset Ω) : S.card = (S.filter (fun x => hole x = true)).card + (S.filter (fun x => hole x = false)).card := by
  have hd : Disjoint (S.filter (fun x => hole x = true)) (S.filter (fun x => hole x = false)) := by
    rw [Finset.disjoint_left]
    intro x h1 h2
    rw [Finset.mem_filter] at h1 h2
    rw [h1.2] at h2
    exact absurd h2.2 (by decide)
  rw [← Finset.card_union_of_disjoint hd, split_holes]

/-- the cluster operator with the amplitudes `t` -/
noncomputable def clusterOp (hole : Ω → Bool) (t : List Ω → List Ω → R) (n : Nat) : Module.End R (FockSpace Ω R) :=
  ((List.range n).map (fun k => manyBody t (normalProd hole (fockOp R hole)) (k + 1) (Finset.univ.filter (fun x => hole x = false)) (Finset.univ.filter (fun x => hole x = true)))).sum

theorem clusterOp_mem (hole : Ω → Bool) (t : List Ω → List Ω → R) (n : Nat) : clusterOp hole t n ∈ wordSpan R (fockOp R hole) (goodModes hole) 1 := by
  unfold clusterOp
  apply list_sum_mem
  intro x hx
  obtain ⟨k, _, rfl⟩ := List.mem_map.1 hx
  exact wordSpan_mono (by omega) (manyBody_wordSpan t (k + 1))

theorem clusterOp_shifts (hole : Ω → Bool) (t : List Ω → List Ω → R) (n : Nat) : clusterOp hole t n ∈ shifts R hole 0 := by
  unfold clusterOp
  apply list_sum_mem
  intro x hx
  obtain ⟨k, _, rfl⟩ := List.mem_map.1 hx
  exact shifts_manyBody _ _ _ _ _

theorem clusterOp_congr {hole : Ω → Bool} {t t' : List Ω → List Ω → R} {n : Nat} (h : ∀ l u, l.length ≤ n → t l u = t' l u) : clusterOp hole t n = clusterOp hole t' n := by
  unfold clusterOp
  refine congrArg List.sum (List.map_congr_left (fun k hk => ?_))
  have := List.mem_range.1 hk
  unfold manyBody
  refine congrArg (fun x => ((1 : ℚ) / ((k + 1).factorial * (k + 1).factorial)) • x) (Finset.sum_congr rfl (fun p _ => Finset.sum_congr rfl (fun q _ => ?_)))
  rw [h _ _ (by rw [List.length_ofFn]; omega)]

theorem cluster_exists_upto {hole : Ω → Bool} {y : FockSpace Ω R} (hy0 : y ∅ = 1)
    (hyc : ∀ S, y S ≠ 0 → (S.filter (fun x => hole x = false)).card = (S.filter (fun x => hole x = true)).card) : ∀ n : Nat,
    ∃ t : List Ω → List Ω → R, (∀ u, Alternates (fun l => t l u)) ∧ (∀ l, Alternates (t l)) ∧ ∀ S : Finset Ω, (S.filter (fun x => hole x = true)).card ≤ n → IsNilpotent.exp (clusterOp hole t n) (fockVacuum R) S = y S := by
  have hneutral : ∀ (t : List Ω → List Ω → R) (n : Nat) (S : Finset Ω), (S.filter (fun x => hole x = false)).card ≠ (S.filter (fun x => hole x = true)).card → IsNilpotent.exp (clusterOp hole t n) (fockVacuum R) S = y S := by
    intro t n S h
    rw [not_not.1 (fun h0 => h (hyc S h0))]
    exact not_not.1 (fun h0 => h (shifts_vacuum (shifts_exp (clusterOp_shifts hole t n)) h0))
  intro n
  induction n with
  | zero =>
    refine ⟨fun _ _ => 0, fun _ _ _ _ _ => neg_zero.symm, fun _ _ _ _ _ => neg_zero.symm, fun S hS => ?_⟩
    by_cases hc : (S.filter (fun x => hole x = false)).card = (S.filter (fun x => hole x = true)).card
    swap
    · exact hneutral _ _ _ hc
    have : S = ∅ := by
      rw [← Finset.card_eq_zero, card_holes hole]; omega
    subst this
    rw [hy0, show clusterOp hole (fun _ _ => (0 : R)) 0 = 0 from rfl, IsNilpotent.exp_zero, Module.End.one_apply]
    simp [fockVacuum]
  | succ n ih =>
    obtain ⟨t, h1, h2, hS⟩ := ih
    let z : FockSpace Ω R := y - IsNilpotent.exp (clusterOp hole t n) (fockVacuum R)
    let W : Module.End R (FockSpace Ω R) := LinearMap.smulRight (Finsupp.lapply ∅) z
    have hW : W (fockVacuum R) = z := by
      show (fockVacuum R) ∅ • z = z
      simp [fockVacuum]
    let t' : List Ω → List Ω → R := fun l u => if l.length ≤ n then t l u else fockExpectation R (bra (fockOp R hole) u l * W)
    have hsh : ∀ l u : List Ω, l.length ≤ n → t' l u = t l u := fun l u h => if_pos h
    have hlo : ∀ l u : List Ω, ¬ l.length ≤ n → t' l u = fockExpectation R (bra (fockOp R hole) u l * W) := fun l u h => if_neg h
    have hneg : ∀ b : Module.End R (FockSpace Ω R), fockExpectation R (-b * W) = - fockExpectation R (b * W) := fun b => by
      show (-(b (W (fockVacuum R)))) ∅ = -((b (W (fockVacuum R))) ∅)
      rw [Finsupp.neg_apply]
    have ht1 : ∀ u, Alternates (fun l => t' l u) := by
      intro u xs a b ys
      show t' (xs ++ a :: b :: ys) u = - t' (xs ++ b :: a :: ys) u
      have e : (xs ++ a :: b :: ys).length = (xs ++ b :: a :: ys).length := by simp
      by_cases h : (xs ++ a :: b :: ys).length ≤ n
      · rw [hsh _ _ h, hsh _ _ (e ▸ h)]; exact h1 u xs a b ys
      · rw [hlo _ _ h, hlo _ _ (e ▸ h), bra_lower (fock_car (R := R) hole)]; exact hneg _
    have ht2 : ∀ l, Alternates (t' l) := by
      intro l xs a b ys
      by_cases h : l.length ≤ n
      · rw [hsh _ _ h, hsh _ _ h]; exact h2 l xs a b ys
      · rw [hlo _ _ h, hlo _ _ h, bra_upper (fock_car (R := R) hole)]; exact hneg _
    have hco : clusterOp hole t' n = clusterOp hole t n := clusterOp_congr hsh
    let X := manyBody t' (normalProd hole (fockOp R hole)) (n + 1) (Finset.univ.filter (fun x => hole x = false)) (Finset.univ.filter (fun x => hole x = true))
    have hX : X ∈ wordSpan R (fockOp R hole) (goodModes hole) (2 * (n + 1)) := manyBody_wordSpan t' (n + 1)
    have hadd : clusterOp hole t' (n + 1) = clusterOp hole t n + X := by
      rw [← hco]
      unfold clusterOp
      rw [List.range_succ, List.map_append, List.sum_append, List.map_singleton, List.sum_singleton]
    refine ⟨t', ht1, ht2, fun S hcard => ?_⟩
    by_cases hc : (S.filter (fun x => hole x = false)).card = (S.filter (fun x => hole x = true)).card
    swap
    · exact hneutral _ _ _ hc
    have hSc := card_holes hole S
    rw [hadd, exp_step (by omega) (clusterOp_mem hole t n) hX (creators_of_wordSpan goodModes_good hX) (by omega)]
    rcases Nat.lt_or_ge (S.filter (fun x => hole x = true)).card (n + 1) with hlt | hge
    · rw [hS S (by omega), wordSpan_coeff goodModes_good hX (by omega), add_zero]
    · have hu : ∀ x ∈ (S.filter (fun x => hole x = true)).toList, hole x = true := fun x hx => (Finset.mem_filter.1 (Finset.mem_toList.1 hx)).2
      have hl : ∀ x ∈ (S.filter (fun x => hole x = false)).toList, hole x = false := fun x hx => (Finset.mem_filter.1 (Finset.mem_toList.1 hx)).2
      have hlu : (S.filter (fun x => hole x = true)).toList.length = n + 1 := by rw [Finset.length_toList]; omega
      have hll : (S.filter (fun x => hole x = false)).toList.length = n + 1 := by rw [Finset.length_toList]; omega
      obtain ⟨ε, hε, hbra⟩ := expectation_bra (R := R) hu hl (Finset.nodup_toList _) (Finset.nodup_toList _)
      rw [Finset.toList_toFinset, Finset.toList_toFinset, split_holes] at hbra
      have ha := amplitude_element (R := R) (fock_car hole) (fock_expectation hole) (V := Finset.univ.filter (fun x => hole x = false)) (O := Finset.univ.filter (fun x => hole x = true))
        (by simp) (by simp) ht1 ht2 hu hl (by rw [hlu, hll])
      rw [hlu] at ha
      have ht : t' (S.filter (fun x => hole x = false)).toList (S.filter (fun x => hole x = true)).toList = fockExpectation R (bra (fockOp R hole) (S.filter (fun x => hole x = true)).toList (S.filter (fun x => hole x = false)).toList * W) :=
        hlo _ _ (by omega)
      rw [ht, hbra, hbra, hW] at ha
      have hXS : X (fockVacuum R) S = z S := by
        rcases hε with e | e <;> rw [e] at ha
        · rwa [one_mul, one_mul] at ha
        · rwa [neg_one_mul, neg_one_mul, neg_inj] at ha
      rw [hXS]
      show _ + (y - _) S = _
      rw [Finsupp.sub_apply]
      abel

/-- **Every state is a cluster operator's exponential, applied to the vacuum**, if it has as many electrons as the vacuum and the coefficient one on the vacuum. -/
theorem cluster_exists {hole : Ω → Bool} {y : FockSpace Ω R} (hy0 : y ∅ = 1)
    (hyc : ∀ S, y S ≠ 0 → (S.filter (fun x => hole x = false)).card = (S.filter (fun x => hole x = true)).card) {n : Nat}
    (hn : (Finset.univ.filter (fun x => hole x = true)).card ≤ n ∨ (Finset.univ.filter (fun x => hole x = false)).card ≤ n) :
    ∃ t : List Ω → List Ω → R, (∀ u, Alternates (fun l => t l u)) ∧ (∀ l, Alternates (t l)) ∧ IsNilpotent.exp (clusterOp hole t n) (fockVacuum R) = y := by
  obtain ⟨t, h1, h2, h⟩ := cluster_exists_upto hy0 hyc n
  refine ⟨t, h1, h2, Finsupp.ext (fun S => ?_)⟩
  by_cases hc : (S.filter (fun x => hole x = false)).card = (S.filter (fun x => hole x = true)).card
  · apply h
    rcases hn with hn | hn
    · exact (Finset.card_le_card (Finset.filter_subset_filter _ (Finset.subset_univ S))).trans hn
    · rw [← hc]
      exact (Finset.card_le_card (Finset.filter_subset_filter _ (Finset.subset_univ S))).trans hn
  · rw [not_not.1 (fun h0 => hc (hyc S h0))]
    exact not_not.1 (fun h0 => hc (shifts_vacuum (shifts_exp (clusterOp_shifts hole t n)) h0))
end
end Wick
end Wicked
