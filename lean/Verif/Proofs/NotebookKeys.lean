import Verif.Proofs.FockSpace
import Verif.Proofs.CoupledCluster
import Verif.Spec.ManyBody
import Verif.Proofs.Antisym
/-! # A system in which a residual of the coupled-cluster equations is not zero (for C99) -/
namespace Wicked
namespace Wick
open Equiv

section
variable {Ω R B : Type} [DecidableEq Ω] [CommRing R] [Ring B] [Algebra R B] {op : SQType → Ω → B} {hole : Ω → Bool}

/-- the operator that counts the electrons in the orbitals `V` -/
def counter (op : SQType → Ω → B) (V : Finset Ω) : B := ∑ a ∈ V, op .creation a * op .annihilation a

theorem counter_pass (hcar : IsCAR op) {V : Finset Ω} (hV : ∀ x, x ∈ V ↔ hole x = false) {m : SQType × Ω} (hm : kills hole m = false) :
    counter op V * op m.1 m.2 = op m.1 m.2 * counter op V + (if m.1 = .creation then 1 else 0 : Nat) • op m.1 m.2 := by
  obtain ⟨s, b⟩ := m
  unfold counter
  cases s
  · have hb : b ∈ V := (hV b).2 (by simpa [kills] using hm)
    rw [if_pos rfl, one_smul, Finset.sum_mul, Finset.mul_sum]
    have e : ∀ a ∈ V, op .creation a * op .annihilation a * op .creation b = op .creation b * (op .creation a * op .annihilation a) + if a = b then op .creation b else 0 := by
      intro a _
      have h := hcar.mixed a b
      rw [mul_assoc, eq_sub_of_add_eq h, mul_sub, ← mul_assoc, hcar.same .creation a b, neg_mul, sub_neg_eq_add, mul_assoc, add_comm]
      by_cases hab : a = b
      · rw [if_pos hab, if_pos hab, mul_one, hab]
      · rw [if_neg hab, if_neg hab, mul_zero]
    rw [Finset.sum_congr rfl e, Finset.sum_add_distrib, Finset.sum_ite_eq' V b, if_pos hb]
  · have hb : hole b = true := by simpa [kills] using hm
    rw [if_neg (by simp), zero_smul, add_zero, Finset.sum_mul, Finset.mul_sum]
    refine Finset.sum_congr rfl (fun a ha => ?_)
    have hab : b ≠ a := fun e => by rw [e, (hV a).1 ha] at hb; cases hb
    have h := hcar.mixed b a
    rw [if_neg hab] at h
    have h' : op .annihilation b * op .creation a = -(op .creation a * op .annihilation b) := eq_neg_of_add_eq_zero_left h
    rw [mul_assoc, hcar.same .annihilation a b, mul_neg, ← mul_assoc, ← neg_mul, ← h', mul_assoc]

theorem counter_word (hcar : IsCAR op) {V : Finset Ω} (hV : ∀ x, x ∈ V ↔ hole x = false) (w : List (SQType × Ω)) (hw : ∀ m ∈ w, kills hole m = false) :
    counter op V * (w.map (fun m => op m.1 m.2)).prod = (w.map (fun m => op m.1 m.2)).prod * counter op V + (w.countP (fun m => m.1 = .creation)) • (w.map (fun m => op m.1 m.2)).prod := by
  induction w with
  | nil => simp
  | cons m w ih =>
    rw [List.map_cons, List.prod_cons, ← mul_assoc, counter_pass hcar hV (hw m (by simp)), add_mul, mul_assoc, ih (fun n hn => hw n (by simp [hn])), List.countP_cons, add_smul, mul_add, mul_assoc]
    have e : ((if m.1 = .creation then 1 else 0 : Nat) • op m.1 m.2) * (w.map (fun m => op m.1 m.2)).prod = (if (decide (m.1 = .creation)) = true then 1 else 0 : Nat) • (op m.1 m.2 * (w.map (fun m => op m.1 m.2)).prod) := by
      by_cases h : m.1 = .creation <;> simp [h]
    rw [e, mul_smul_comm, add_assoc]

omit [DecidableEq Ω] in
theorem counter_right {φ : B →ₗ[R] R} (hφ : IsVacuumExpectation op hole φ) {V : Finset Ω} (hV : ∀ x, x ∈ V ↔ hole x = false) (X : B) : φ (X * counter op V) = 0 := by
  unfold counter
  rw [Finset.mul_sum, map_sum]
  refine Finset.sum_eq_zero (fun a ha => ?_)
  rw [← mul_assoc]
  exact hφ.right _ _ _ (by simp [kills, (hV a).1 ha])
end

section
variable {Ω R B : Type} [Inhabited Ω] [DecidableEq Ω] [CommRing R] [Ring B] [Algebra R B] [Algebra ℚ B] {op : SQType → Ω → B} {hole : Ω → Bool}

/-- excitation words of rank `n` -/
def excWord {n : Nat} (p q : Fin n → Ω) : List (SQType × Ω) := (List.ofFn p).map (fun x => (.creation, x)) ++ ((List.ofFn q).map (fun x => (.annihilation, x))).reverse

omit [Inhabited Ω] [DecidableEq Ω] in
theorem excWord_good {n : Nat} {p q : Fin n → Ω} (hp : ∀ i, hole (p i) = false) (hq : ∀ i, hole (q i) = true) : ∀ m ∈ excWord p q, kills hole m = false := by
  intro m hm
  rcases List.mem_append.1 hm with hm | hm
  · obtain ⟨x, hx, rfl⟩ := List.mem_map.1 hm
    obtain ⟨i, rfl⟩ := List.mem_ofFn.1 hx
    exact hp i
  · rw [List.mem_reverse] at hm
    obtain ⟨x, hx, rfl⟩ := List.mem_map.1 hm
    obtain ⟨i, rfl⟩ := List.mem_ofFn.1 hx
    simp [kills, hq i]

omit [Inhabited Ω] [DecidableEq Ω] in
theorem excWord_count {n : Nat} (p q : Fin n → Ω) : (excWord p q).countP (fun m => m.1 = .creation) = n := by
  unfold excWord
  rw [List.countP_append, List.countP_reverse, List.countP_map, List.countP_map]
  have h1 : (List.ofFn p).countP ((fun m : SQType × Ω => decide (m.1 = .creation)) ∘ fun x => (.creation, x)) = (List.ofFn p).length := by
    rw [List.countP_eq_length]; intro a _; simp
  have h2 : (List.ofFn q).countP ((fun m : SQType × Ω => decide (m.1 = .creation)) ∘ fun x => (.annihilation, x)) = 0 := by
    rw [List.countP_eq_zero]; intro a _; simp
  rw [h1, h2]; simp

omit [Inhabited Ω] in
theorem counter_cluster [Algebra ℚ R] [IsScalarTower ℚ R B] (hcar : IsCAR op) {V O : Finset Ω} (hV : ∀ x, x ∈ V ↔ hole x = false) (hO : ∀ x, x ∈ O ↔ hole x = true) (t : List Ω → List Ω → R) (n : Nat) :
    counter op V * manyBody t (normalProd hole op) n V O = manyBody t (normalProd hole op) n V O * counter op V + n • manyBody t (normalProd hole op) n V O := by
  unfold manyBody
  rw [mul_smul_comm, smul_mul_assoc, smul_comm n, ← smul_add]
  congr 1
  rw [Finset.mul_sum, Finset.sum_mul, Finset.smul_sum, ← Finset.sum_add_distrib]
  refine Finset.sum_congr rfl (fun p hp => ?_)
  rw [Finset.mul_sum, Finset.sum_mul, Finset.smul_sum, ← Finset.sum_add_distrib]
  refine Finset.sum_congr rfl (fun q hq => ?_)
  have hg := excWord_good (hole := hole) (fun i => (hV _).1 (Fintype.mem_piFinset.1 hp i)) (fun i => (hO _).1 (Fintype.mem_piFinset.1 hq i))
  have hc := counter_word hcar hV _ hg
  rw [excWord_count] at hc
  have e : normalProd hole op ((List.ofFn p).map (fun x => (SQType.creation, x)) ++ ((List.ofFn q).map (fun x => (SQType.annihilation, x))).reverse) = ((excWord p q).map (fun m => op m.1 m.2)).prod := normalProd_good hg
  rw [e, mul_smul_comm, hc, smul_mul_assoc, smul_add, smul_comm n]

/-- projection of an antisymmetric function -/
theorem sum_coincidences {F : List Ω → R} (hF : Alternates F) {D : Finset Ω} {l : List Ω} (hl : ∀ x ∈ l, x ∈ D) :
    ∑ p ∈ Fintype.piFinset (fun _ : Fin l.length => D), F (List.ofFn p) * coincidences R l (List.ofFn p) = l.length.factorial * F l := by
  unfold coincidences
  simp only [Finset.mul_sum]
  rw [Finset.sum_comm]
  have key : ∀ σ : Perm (Fin l.length), ∑ p ∈ Fintype.piFinset (fun _ : Fin l.length => D), F (List.ofFn p) * (((Perm.sign σ : Int) : R) * if List.ofFn p = permuted σ l then 1 else 0) = F l := by
    intro σ
    rw [Finset.sum_eq_single (fun k => l.getD (σ k) default)]
    · have h := alternates_permuted hF σ [] l [] rfl
      simp only [List.nil_append, List.append_nil] at h
      rw [show (List.ofFn fun k => l.getD (σ k) default) = permuted σ l from rfl, if_pos rfl, mul_one, h, zsmul_eq_mul, mul_comm, ← mul_assoc]
      rcases Int.units_eq_one_or (Perm.sign σ) with e | e <;> rw [e] <;> simp
    · intro p _ hne
      rw [if_neg (show ¬ List.ofFn p = permuted σ l from fun e => hne (List.ofFn_injective e)), mul_zero, mul_zero]
    · intro h
      exfalso
      apply h
      rw [Fintype.mem_piFinset]
      intro k
      apply hl
      rw [List.getD_eq_getElem?_getD, List.getElem?_eq_getElem (σ k).isLt]
      exact List.getElem_mem _
  rw [Finset.sum_congr rfl (fun σ _ => key σ), Finset.sum_const, Finset.card_univ, Fintype.card_perm, Fintype.card_fin, nsmul_eq_mul]

end

section
variable {Ω B : Type} [Inhabited Ω] [DecidableEq Ω] [Ring B] [Algebra ℚ B] {op : SQType → Ω → B} {hole : Ω → Bool}

/-- the amplitude is the matrix element of the cluster operator -/
theorem cluster_element (hcar : IsCAR op) {φ : B →ₗ[ℚ] ℚ} (hφ : IsVacuumExpectation op hole φ) {V O : Finset Ω} (hV : ∀ x, x ∈ V ↔ hole x = false) (hO : ∀ x, x ∈ O ↔ hole x = true)
    {F G : List Ω → ℚ} (hF : Alternates F) (hG : Alternates G) {u l : List Ω} (hu : ∀ x ∈ u, hole x = true) (hl : ∀ x ∈ l, hole x = false) (hul : l.length = u.length) :
    φ (bra op u l * manyBody (fun l u => F l * G u) (normalProd hole op) u.length V O) = F l * G u := by
  have hb : ∀ p q : Fin u.length → Ω, φ (bra op u l * normalProd hole op ((List.ofFn p).map (fun x => (SQType.creation, x)) ++ ((List.ofFn q).map (fun x => (SQType.annihilation, x))).reverse)) =
      coincidences ℚ u (List.ofFn q) * coincidences ℚ l (List.ofFn p) := by
    intro p q
    rw [← List.map_reverse]
    exact braket hcar hφ hu hl _ _
  unfold manyBody
  rw [mul_smul_comm, map_smul, Finset.mul_sum, map_sum]
  have e : ∀ p ∈ Fintype.piFinset (fun _ : Fin u.length => V), φ (bra op u l * ∑ q ∈ Fintype.piFinset (fun _ : Fin u.length => O), (F (List.ofFn p) * G (List.ofFn q)) •
      normalProd hole op ((List.ofFn p).map (fun x => (SQType.creation, x)) ++ ((List.ofFn q).map (fun x => (SQType.annihilation, x))).reverse)) =
      F (List.ofFn p) * coincidences ℚ l (List.ofFn p) * (u.length.factorial * G u) := by
    intro p _
    rw [Finset.mul_sum, map_sum, ← sum_coincidences hG (D := O) (fun x hx => (hO x).2 (hu x hx)), Finset.mul_sum]
    refine Finset.sum_congr rfl (fun q _ => ?_)
    rw [mul_smul_comm, map_smul, hb, smul_eq_mul]
    ring
  rw [Finset.sum_congr rfl e, ← Finset.sum_mul]
  have h := sum_coincidences (R := ℚ) hF (D := V) (l := l) (fun x hx => (hV x).2 (hl x hx))
  rw [hul] at h
  rw [h, smul_eq_mul]
  have := Nat.factorial_ne_zero u.length
  field_simp

/-- if the Hamiltonian counts the electrons in the unoccupied orbitals, the residual is a multiple of the amplitude -/
theorem residual_of_counter (hcar : IsCAR op) {φ : B →ₗ[ℚ] ℚ} (hφ : IsVacuumExpectation op hole φ) {V O : Finset Ω} (hV : ∀ x, x ∈ V ↔ hole x = false) (hO : ∀ x, x ∈ O ↔ hole x = true)
    {F G : List Ω → ℚ} (hF : Alternates F) (hG : Alternates G) {u l : List Ω} (hu : ∀ x ∈ u, hole x = true) (hl : ∀ x ∈ l, hole x = false) (hul : l.length = u.length)
    {T : B} (hT : T = manyBody (fun l u => F l * G u) (normalProd hole op) u.length V O) (hnil : IsNilpotent T) :
    φ (bra op u l * (IsNilpotent.exp (-T) * counter op V * IsNilpotent.exp T)) = u.length * (F l * G u) := by
  have h1 : adR ℚ T (counter op V) = u.length • T := by
    rw [adR_apply, hT, counter_cluster hcar hV hO]; abel
  have h2 : (adR ℚ T ^ 2) (counter op V) = 0 := by
    rw [pow_two, Module.End.mul_apply, h1, map_nsmul, adR_apply, sub_self, smul_zero]
  rw [exp_conj hnil h2, Finset.sum_range_succ, Finset.sum_range_one]
  simp only [pow_zero, Module.End.one_apply, pow_one, Nat.factorial_zero, Nat.factorial_one, Nat.cast_one, inv_one, one_smul]
  rw [mul_add, map_add, counter_right hφ hV, zero_add, h1, mul_smul_comm, map_nsmul, hT, cluster_element hcar hφ hV hO hF hG hu hl hul, nsmul_eq_mul]

omit [Inhabited Ω] in
theorem cluster_wordSpan {V O : Finset Ω} (hV : ∀ x, x ∈ V ↔ hole x = false) (hO : ∀ x, x ∈ O ↔ hole x = true) (t : List Ω → List Ω → ℚ) (n : Nat)
    {M : Finset (SQType × Ω)} (hM : ∀ m, kills hole m = false → m ∈ M) : manyBody t (normalProd hole op) n V O ∈ wordSpan ℚ op M (2 * n) := by
  unfold manyBody
  refine Submodule.smul_mem _ _ (Submodule.sum_mem _ (fun p hp => Submodule.sum_mem _ (fun q hq => Submodule.smul_mem _ _ (Submodule.subset_span ?_))))
  have hg := excWord_good (hole := hole) (fun i => (hV _).1 (Fintype.mem_piFinset.1 hp i)) (fun i => (hO _).1 (Fintype.mem_piFinset.1 hq i))
  have hlen : (excWord p q).length = 2 * n := by simp [excWord]; omega
  exact ⟨excWord p q, fun m hm => hM m (hg m hm), by rw [hlen]; exact even_two_mul n, le_of_eq hlen.symm, normalProd_good hg⟩

omit [Inhabited Ω] [DecidableEq Ω] [Algebra ℚ B] in
/-- words of operators that annihilate the vacuum -/
theorem normalProd_allbad {l : List (SQType × Ω)} (h : ∀ m ∈ l, kills hole m = true) : normalProd hole op l = (l.map (fun m => op m.1 m.2)).prod := by
  have h1 : l.filter (fun m => !kills hole m) = [] := List.filter_eq_nil_iff.2 (fun m hm => by simp [h m hm])
  have h2 : l.filter (fun m => kills hole m) = l := List.filter_eq_self.2 (fun m hm => by simp [h m hm])
  have h3 : normalSign hole l = 1 := by
    clear h2
    induction l with
    | nil => rfl
    | cons m l ih =>
      have h0 : l.countP (fun n => !kills hole n) = 0 := by rw [List.countP_eq_zero]; intro n hn; simp [h n (by simp [hn])]
      rw [normalSign, h m (by simp), h0, ih (fun n hn => h n (by simp [hn])) (List.filter_eq_nil_iff.2 (fun m hm => by simp [h m (by simp [hm])]))]; simp
  rw [normalProd, h1, h2, h3]
  simp

/-- if the Hamiltonian is the adjoint of the cluster operator, the energy is a sum of squares -/
theorem energy_of_adjoint (hcar : IsCAR op) {φ : B →ₗ[ℚ] ℚ} (hφ : IsVacuumExpectation op hole φ) {V O U : Finset Ω} (hV : ∀ x, x ∈ V ↔ hole x = false) (hO : ∀ x, x ∈ O ↔ hole x = true) (hU : ∀ x, x ∈ U)
    {F G : List Ω → ℚ} (hF : Alternates F) (hG : Alternates G) {n : Nat} (hn : 1 ≤ n)
    {T H : B} (hT : T = manyBody (fun l u => F l * G u) (normalProd hole op) n V O) (hT2 : T * T = 0)
    (hH : H = manyBody (fun l u => if (∀ x ∈ l, hole x = true) ∧ ∀ x ∈ u, hole x = false then G l * F u else 0) (normalProd hole op) n U U)
    {u l : List Ω} (hu : ∀ x ∈ u, hole x = true) (hl : ∀ x ∈ l, hole x = false) (hun : u.length = n) (hln : l.length = n) (hFl : F l ≠ 0) (hGu : G u ≠ 0) :
    φ (IsNilpotent.exp (-T) * H * IsNilpotent.exp T) ≠ 0 := by
  have e1 : IsNilpotent.exp T = 1 + T := by
    rw [IsNilpotent.exp_eq_sum (k := 2) (by rw [pow_two, hT2])]
    simp [Finset.sum_range_succ]
  have e2 : IsNilpotent.exp (-T) = 1 - T := by
    rw [IsNilpotent.exp_eq_sum (k := 2) (by rw [pow_two, neg_mul_neg, hT2])]
    simp [Finset.sum_range_succ, sub_eq_add_neg]
  have hleft : ∀ X, φ (T * X) = 0 := by
    intro X
    rw [hT]
    unfold manyBody
    rw [smul_mul_assoc, map_smul, Finset.sum_mul, map_sum, Finset.sum_eq_zero, smul_zero]
    intro p hp
    rw [Finset.sum_mul, map_sum, Finset.sum_eq_zero]
    intro q hq
    have hg := excWord_good (hole := hole) (fun i => (hV _).1 (Fintype.mem_piFinset.1 hp i)) (fun i => (hO _).1 (Fintype.mem_piFinset.1 hq i))
    have e : normalProd hole op ((List.ofFn p).map (fun x => (SQType.creation, x)) ++ ((List.ofFn q).map (fun x => (SQType.annihilation, x))).reverse) = ((excWord p q).map (fun m => op m.1 m.2)).prod := normalProd_good hg
    have hlen : (excWord p q).length = 2 * n := by simp [excWord]; omega
    rw [e, smul_mul_assoc, map_smul]
    match hw : excWord p q, hg, hlen with
    | [], _, hlen => simp at hlen; omega
    | m :: w, hg, _ => rw [List.map_cons, List.prod_cons, mul_assoc, hφ.left _ _ _ (hg m (by simp)), smul_zero]
  have key : ∀ X, φ (H * X) = ((1 : ℚ) / (n.factorial * n.factorial)) * ∑ p ∈ Fintype.piFinset (fun _ : Fin n => U), ∑ q ∈ Fintype.piFinset (fun _ : Fin n => U),
      (if (∀ x ∈ List.ofFn p, hole x = true) ∧ ∀ x ∈ List.ofFn q, hole x = false then G (List.ofFn p) * F (List.ofFn q) * φ (bra op (List.ofFn p) (List.ofFn q) * X) else 0) := by
    intro X
    rw [hH]
    unfold manyBody
    rw [smul_mul_assoc, map_smul, smul_eq_mul, Finset.sum_mul, map_sum]
    congr 1
    refine Finset.sum_congr rfl (fun p _ => ?_)
    rw [Finset.sum_mul, map_sum]
    refine Finset.sum_congr rfl (fun q _ => ?_)
    beta_reduce
    split
    · next h =>
      rw [smul_mul_assoc, map_smul, smul_eq_mul]
      congr 3
      rw [normalProd_allbad (hole := hole)]
      · rw [List.map_append, List.prod_append, bra, List.map_reverse, List.map_map, List.map_reverse, List.map_map]
        rfl
      · intro m hm
        rcases List.mem_append.1 hm with hm | hm
        · obtain ⟨x, hx, rfl⟩ := List.mem_map.1 hm
          exact h.1 x hx
        · rw [List.mem_reverse] at hm
          obtain ⟨x, hx, rfl⟩ := List.mem_map.1 hm
          simp [kills, h.2 x hx]
    · rw [zero_smul, zero_mul, map_zero]
  have hH0 : φ H = 0 := by
    have := key 1
    rw [mul_one] at this
    rw [this, Finset.sum_eq_zero, mul_zero]
    intro p _
    rw [Finset.sum_eq_zero]
    intro q _
    split
    · next h =>
      rw [mul_one]
      have hne : (List.ofFn p).length = n := by simp
      unfold bra
      rcases List.eq_nil_or_concat (List.ofFn q).reverse with e | ⟨w, x, e⟩
      · have := congrArg List.length e
        simp at this; omega
      · have hx : hole x = false := h.2 x (by rw [← List.mem_reverse, e]; simp)
        rw [e, List.concat_eq_append, List.map_append, List.prod_append, List.map_singleton, List.prod_singleton, ← mul_assoc, hφ.right _ _ _ (by simp [kills, hx]), mul_zero]
    · rfl
  rw [e1, e2, sub_mul, one_mul, sub_mul, mul_assoc T, map_sub, hleft, sub_zero, mul_add, mul_one, map_add, hH0, zero_add, key]
  have hfac : (0 : ℚ) < 1 / (n.factorial * n.factorial) := by positivity
  refine ne_of_gt (mul_pos hfac ?_)
  have hterm : ∀ p q : Fin n → Ω, (if (∀ x ∈ List.ofFn p, hole x = true) ∧ ∀ x ∈ List.ofFn q, hole x = false then G (List.ofFn p) * F (List.ofFn q) * φ (bra op (List.ofFn p) (List.ofFn q) * T) else 0) =
      if (∀ x ∈ List.ofFn p, hole x = true) ∧ ∀ x ∈ List.ofFn q, hole x = false then (G (List.ofFn p) * F (List.ofFn q)) ^ 2 else 0 := by
    intro p q
    split
    · next h =>
      have := cluster_element hcar hφ hV hO hF hG (u := List.ofFn p) (l := List.ofFn q) h.1 h.2 (by simp)
      rw [List.length_ofFn] at this
      rw [hT, this]
      ring
    · rfl
  have hnn : ∀ p q : Fin n → Ω, 0 ≤ (if (∀ x ∈ List.ofFn p, hole x = true) ∧ ∀ x ∈ List.ofFn q, hole x = false then (G (List.ofFn p) * F (List.ofFn q)) ^ 2 else (0 : ℚ)) := by
    intro p q; split
    · positivity
    · exact le_refl 0
  simp only [hterm]
  subst hun
  have hpu : List.ofFn (fun i : Fin u.length => u[i]) = u := by simp
  have hql : List.ofFn (fun i : Fin u.length => l[(i : Nat)]'(by omega)) = l := by
    apply List.ext_getElem
    · simp [hln]
    · intro i h1 h2; simp
  refine Finset.sum_pos' (fun p _ => Finset.sum_nonneg (fun q _ => hnn p q)) ⟨fun i => u[i], Fintype.mem_piFinset.2 (fun _ => hU _), Finset.sum_pos' (fun q _ => hnn _ q) ⟨fun i => l[(i : Nat)]'(by omega), Fintype.mem_piFinset.2 (fun _ => hU _), ?_⟩⟩
  rw [hpu, hql, if_pos ⟨hu, hl⟩]
  positivity
end
end Wick
end Wicked
