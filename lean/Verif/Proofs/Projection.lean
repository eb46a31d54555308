import Verif.Spec.Projection
import Verif.Proofs.Antisym
import Mathlib.LinearAlgebra.Matrix.Determinant.Basic
/-! # Matrix elements between the vacuum and excited determinants -/
namespace Wicked
open Equiv

/-- creation and annihilation exchanged -/
def SQType.other : SQType → SQType
  | .creation => .annihilation
  | .annihilation => .creation

section
variable {Ω B : Type} [DecidableEq Ω] [Ring B] {op : SQType → Ω → B}

theorem IsCAR.contract (hcar : IsCAR op) (s : SQType) (x y : Ω) : op s.other x * op s y = (if x = y then 1 else 0) - op s y * op s.other x := by
  cases s
  · have := hcar.mixed x y
    exact eq_sub_of_add_eq this
  · have := hcar.mixed y x
    rw [show (if x = y then (1 : B) else 0) = if y = x then 1 else 0 by simp only [eq_comm], ← this, SQType.other]
    abel

theorem pass_same (hcar : IsCAR op) (t : SQType) (x : Ω) (y : List Ω) :
    op t x * (y.map (op t)).prod = (-1) ^ y.length * ((y.map (op t)).prod * op t x) := by
  induction y with
  | nil => simp
  | cons a y ih =>
    rw [List.map_cons, List.prod_cons, ← mul_assoc, hcar.same, neg_mul, mul_assoc, ih, List.length_cons, pow_succ]
    have : Commute ((-1 : B) ^ y.length) (op t a) := (Commute.neg_one_left _).pow_left _
    simp only [← mul_assoc]
    rw [← this.eq]
    simp [mul_assoc]

theorem pass_other (hcar : IsCAR op) (s : SQType) (x : Ω) : ∀ {n : Nat} (w : Fin (n + 1) → Ω),
    op s.other x * (List.ofFn (fun i => op s (w i))).prod =
      (∑ j : Fin (n + 1), (-1 : B) ^ (j : Nat) * (if x = w j then (List.ofFn (fun i : Fin n => op s (w (j.succAbove i)))).prod else 0)) +
      (-1) ^ (n + 1) * ((List.ofFn (fun i => op s (w i))).prod * op s.other x)
  | 0, w => by
    simp only [List.ofFn_succ, List.ofFn_zero, List.prod_cons, List.prod_nil, mul_one]
    rw [hcar.contract, Fin.sum_univ_succ]
    simp [sub_eq_add_neg]
  | n + 1, w => by
    rw [List.ofFn_succ, List.prod_cons, ← mul_assoc, hcar.contract, sub_mul, mul_assoc (op s (w 0)),
      pass_other hcar s x (fun i : Fin (n + 1) => w i.succ), Fin.sum_univ_succ (n := n + 1), mul_add, Finset.mul_sum, sub_eq_add_neg, neg_add, ← add_assoc,
      ← Finset.sum_neg_distrib]
    congr 1
    · congr 1
      · simp [ite_mul]
      · apply Finset.sum_congr rfl
        intro j _
        have hc : Commute ((-1 : B) ^ (j : Nat)) (op s (w 0)) := (Commute.neg_one_left _).pow_left _
        rw [← mul_assoc, ← hc.eq, mul_assoc, mul_ite, mul_zero, Fin.val_succ, pow_succ]
        simp only [List.ofFn_succ (f := fun i : Fin (n + 1) => op s (w (j.succ.succAbove i))), Fin.succ_succAbove_zero, Fin.succ_succAbove_succ, List.prod_cons]
        split <;> simp
    · have hc : Commute ((-1 : B) ^ (n + 1)) (op s (w 0)) := (Commute.neg_one_left _).pow_left _
      rw [← mul_assoc, ← hc.eq, pow_succ _ (n + 1)]
      simp [mul_assoc]
end

section
variable {Ω R B : Type} [DecidableEq Ω] [CommRing R] [Ring B] [Algebra R B] {op : SQType → Ω → B} {hole : Ω → Bool} {φ : B →ₗ[R] R}

theorem phi_sign (φ : B →ₗ[R] R) (k : Nat) (X b : B) : φ (X * ((-1) ^ k * b)) = (-1) ^ k * φ (X * b) := by
  rcases neg_one_pow_eq_or B k with h | h <;> rcases Nat.even_or_odd k with e | e
  · rw [e.neg_one_pow, e.neg_one_pow]; simp
  · rw [e.neg_one_pow, e.neg_one_pow]; simp
  · rw [e.neg_one_pow, e.neg_one_pow]; simp
  · rw [e.neg_one_pow, e.neg_one_pow]; simp

theorem kills_right (hcar : IsCAR op) (hφ : IsVacuumExpectation op hole φ) {t : SQType} {x : Ω} (hx : kills hole (t, x) = true) (X Z : B) (y : List Ω) :
    φ (X * (Z * op t x * (y.map (op t)).prod)) = 0 := by
  rw [mul_assoc Z, pass_same hcar]
  have hc : Commute ((-1 : B) ^ y.length) Z := (Commute.neg_one_left _).pow_left _
  rw [← mul_assoc Z, ← hc.eq, mul_assoc, phi_sign, ← mul_assoc, ← mul_assoc, hφ.right _ _ _ hx, mul_zero]

/-- the matrix of coincidences of two lists of orbitals -/
def coincide (R : Type) [CommRing R] {n : Nat} (P w : Fin n → Ω) : Matrix (Fin n) (Fin n) R := Matrix.of (fun i j => if P i = w j then 1 else 0)

theorem braket_det (hcar : IsCAR op) (hφ : IsVacuumExpectation op hole φ) (s : SQType) (y : List Ω) : ∀ {n : Nat} (P w : Fin n → Ω) (X : B),
    (∀ i, kills hole (s.other, P i) = true) →
    φ (X * (((List.ofFn P).reverse.map (op s.other)).prod * ((List.ofFn (fun i => op s (w i))).prod * (y.map (op s.other)).prod))) =
      (coincide R P w).det * φ (X * (y.map (op s.other)).prod)
  | 0, P, w, X, _ => by simp [coincide]
  | n + 1, P, w, X, hP => by
    rw [List.ofFn_succ (f := P), List.reverse_cons, List.map_append, List.prod_append, List.map_singleton, List.prod_singleton,
      mul_assoc _ (op s.other (P 0)), ← mul_assoc (op s.other (P 0)), pass_other hcar, add_mul, mul_add, mul_add, map_add]
    rw [show φ (X * (((List.ofFn fun i => P i.succ).reverse.map (op s.other)).prod * ((-1) ^ (n + 1) * ((List.ofFn fun i => op s (w i)).prod * op s.other (P 0)) * (y.map (op s.other)).prod))) = 0 by
      rw [← mul_assoc X, mul_assoc ((-1) ^ (n + 1)), phi_sign, kills_right hcar hφ (hP 0), mul_zero], add_zero]
    rw [Finset.sum_mul, Finset.mul_sum, Finset.mul_sum, map_sum, Matrix.det_succ_row_zero, Finset.sum_mul]
    apply Finset.sum_congr rfl
    intro j _
    rw [← mul_assoc X, mul_assoc ((-1 : B) ^ (j : Nat)), phi_sign, mul_assoc X]
    have hs : (coincide R P w).submatrix Fin.succ j.succAbove = coincide R (fun i => P i.succ) (fun i => w (j.succAbove i)) := rfl
    rw [hs]
    rw [mul_assoc ((-1 : R) ^ (j : Nat)), mul_assoc]
    congr 1
    by_cases h : P 0 = w j
    · rw [if_pos h, braket_det hcar hφ s y (fun i : Fin n => P i.succ) (fun i => w (j.succAbove i)) X (fun i => hP i.succ)]
      simp [coincide, h]
    · rw [if_neg h]
      simp [coincide, h]

theorem braket_mismatch (hcar : IsCAR op) (hφ : IsVacuumExpectation op hole φ) (s : SQType) (y : List Ω) {X : B}
    (hX : ∀ x b, kills hole (s, x) = false → φ (X * (op s x * b)) = 0) : ∀ {n m : Nat} (P : Fin n → Ω) (w : Fin m → Ω),
    (∀ i, kills hole (s.other, P i) = true) → (∀ i, kills hole (s, w i) = false) → n ≠ m →
    φ (X * (((List.ofFn P).reverse.map (op s.other)).prod * ((List.ofFn (fun i => op s (w i))).prod * (y.map (op s.other)).prod))) = 0
  | 0, 0, _, _, _, _, h => absurd rfl h
  | 0, m + 1, P, w, _, hw, _ => by
    simp only [List.ofFn_zero, List.reverse_nil, List.map_nil, List.prod_nil, one_mul]
    rw [List.ofFn_succ, List.prod_cons, mul_assoc]
    exact hX _ _ (hw 0)
  | n + 1, 0, P, w, hP, _, _ => by
    rw [List.ofFn_succ (f := P), List.reverse_cons, List.map_append, List.prod_append, List.map_singleton, List.prod_singleton]
    simp only [List.ofFn_zero, List.prod_nil, one_mul]
    exact kills_right hcar hφ (hP 0) _ _ _
  | n + 1, m + 1, P, w, hP, hw, hne => by
    rw [List.ofFn_succ (f := P), List.reverse_cons, List.map_append, List.prod_append, List.map_singleton, List.prod_singleton,
      mul_assoc _ (op s.other (P 0)), ← mul_assoc (op s.other (P 0)), pass_other hcar, add_mul, mul_add, mul_add, map_add]
    rw [show φ (X * (((List.ofFn fun i => P i.succ).reverse.map (op s.other)).prod * ((-1) ^ (m + 1) * ((List.ofFn fun i => op s (w i)).prod * op s.other (P 0)) * (y.map (op s.other)).prod))) = 0 by
      rw [← mul_assoc X, mul_assoc ((-1) ^ (m + 1)), phi_sign, kills_right hcar hφ (hP 0), mul_zero], add_zero]
    rw [Finset.sum_mul, Finset.mul_sum, Finset.mul_sum, map_sum]
    apply Finset.sum_eq_zero
    intro j _
    rw [← mul_assoc X, mul_assoc ((-1 : B) ^ (j : Nat)), phi_sign, mul_assoc X]
    by_cases h : P 0 = w j
    · rw [if_pos h, braket_mismatch hcar hφ s y hX (fun i : Fin n => P i.succ) (fun i => w (j.succAbove i)) (fun i => hP i.succ) (fun i => hw _) (by omega), mul_zero]
    · rw [if_neg h]; simp

/-- signed number of permutations that take `u` to `u'` -/
def coincidences (R : Type) [CommRing R] [Inhabited Ω] (u u' : List Ω) : R := ∑ σ : Perm (Fin u.length), ((Perm.sign σ : Int) : R) * if u' = permuted σ u then 1 else 0

theorem coincide_det [Inhabited Ω] (u u' : List Ω) (h : u'.length = u.length) :
    (coincide R (fun i : Fin u.length => u[i]) (fun i => u'[i])).det = coincidences R u u' := by
  rw [Matrix.det_apply', coincidences]
  apply Finset.sum_congr rfl
  intro σ _
  congr 1
  have he : u' = permuted σ u ↔ ∀ i : Fin u.length, u[σ i] = u'[i] := by
    constructor
    · intro e i
      have h1 : u'[i]? = (permuted σ u)[i]? := by rw [← e]
      have h2 : (i : Nat) < u'.length := by omega
      simp only [Fin.getElem?_fin, permuted] at h1
      rw [List.getElem?_eq_getElem h2] at h1
      simp only [List.getElem?_ofFn, Fin.is_lt, dite_true, Option.some.injEq] at h1
      rw [Fin.getElem_fin, Fin.getElem_fin, h1]
      simp [List.getD_eq_getElem?_getD]
    · intro e
      apply List.ext_getElem
      · simp [permuted, h]
      intro i h1 h2
      have := e ⟨i, by omega⟩
      simp only [Fin.getElem_fin] at this
      rw [← this]
      simp [permuted, List.getD_eq_getElem?_getD]
  by_cases hu : u' = permuted σ u
  · rw [if_pos hu]
    apply Finset.prod_eq_one
    intro i _
    simp only [coincide, Matrix.of_apply]
    rw [if_pos (he.1 hu i)]
  · rw [if_neg hu]
    rw [he] at hu
    push Not at hu
    obtain ⟨i, hi⟩ := hu
    exact Finset.prod_eq_zero (Finset.mem_univ i) (by simp only [coincide, Matrix.of_apply]; rw [if_neg hi])

theorem coincidences_length [Inhabited Ω] {u u' : List Ω} (h : u'.length ≠ u.length) : coincidences R u u' = 0 := by
  apply Finset.sum_eq_zero
  intro σ _
  rw [if_neg (fun e => h (by rw [e, permuted_length])), mul_zero]

theorem permuted_perm [Inhabited Ω] (u : List Ω) (σ : Perm (Fin u.length)) : (permuted σ u).Perm u := by
  have h : permuted σ u = List.ofFn ((fun i : Fin u.length => u[i]) ∘ σ) := by
    unfold permuted
    congr 1
    funext k
    simp [List.getD_eq_getElem?_getD]
  rw [h]
  refine (Equiv.Perm.ofFn_comp_perm σ _).trans ?_
  rw [show List.ofFn (fun i : Fin u.length => u[i]) = u from by simp]

theorem coincidences_perm [Inhabited Ω] {u u' : List Ω} (h : ¬ u'.Perm u) : coincidences R u u' = 0 := by
  apply Finset.sum_eq_zero
  intro σ _
  rw [if_neg (fun e => h (by rw [e]; exact permuted_perm u σ)), mul_zero]

theorem coincidences_reverse [Inhabited Ω] (u u' : List Ω) : coincidences R u.reverse u'.reverse = coincidences R u u' := by
  by_cases h : u'.length = u.length
  · rw [← coincide_det _ _ (by simpa using h), ← coincide_det _ _ h]
    have e : u.reverse.length = u.length := List.length_reverse
    rw [← Matrix.det_submatrix_equiv_self ((finCongr e).trans Fin.revPerm) (coincide R (fun i : Fin u.length => u[i]) (fun i => u'[i]))]
    congr 1
    funext i j
    simp only [coincide, Matrix.of_apply, Matrix.submatrix_apply, Equiv.trans_apply, finCongr_apply, Fin.revPerm_apply, Fin.getElem_fin, List.getElem_reverse, Fin.val_rev, Fin.val_cast]
    congr 2
    · congr 1; omega
    · congr 1; omega
  · rw [coincidences_length h, coincidences_length (by simpa using h)]

theorem normalProd_good {l : List (SQType × Ω)} (h : ∀ m ∈ l, kills hole m = false) : normalProd hole op l = (l.map (fun m => op m.1 m.2)).prod := by
  have h1 : l.filter (fun m => !kills hole m) = l := List.filter_eq_self.2 (fun m hm => by simp [h m hm])
  have h2 : l.filter (fun m => kills hole m) = [] := List.filter_eq_nil_iff.2 (fun m hm => by simp [h m hm])
  have h3 : normalSign hole l = 1 := by
    clear h1 h2
    induction l with
    | nil => rfl
    | cons m l ih => rw [normalSign, h m (by simp), ih (fun n hn => h n (by simp [hn]))]; simp
  rw [normalProd, h1, h2, h3]
  simp

theorem normalProd_bad (hφ : IsVacuumExpectation op hole φ) {l : List (SQType × Ω)} {m : SQType × Ω} (hm : m ∈ l) (h : kills hole m = true) (X : B) :
    φ (X * normalProd hole op l) = 0 := by
  unfold normalProd
  have hne : l.filter (fun m => kills hole m) ≠ [] := fun e => by
    rw [List.filter_eq_nil_iff] at e
    exact e m hm h
  obtain ⟨l', n, hn⟩ := List.eq_nil_or_concat _ |>.resolve_left hne
  have hk : kills hole n = true := by
    have : n ∈ l.filter (fun m => kills hole m) := by rw [hn]; simp
    simpa using (List.mem_filter.1 this).2
  rw [hn, List.concat_eq_append, List.map_append, List.map_singleton, List.prod_append, List.prod_singleton, ← mul_assoc, ← mul_assoc, ← mul_assoc,
    hφ.right _ n.1 n.2 hk]

/-- **excited determinants are orthonormal** -/
theorem braket [Inhabited Ω] (hcar : IsCAR op) (hφ : IsVacuumExpectation op hole φ) {u l : List Ω} (hu : ∀ x ∈ u, hole x = true) (hl : ∀ x ∈ l, hole x = false) (u' l' : List Ω) :
    φ (bra op u l * normalProd hole op (l'.map (fun x => (.creation, x)) ++ u'.reverse.map (fun x => (.annihilation, x)))) = coincidences R u u' * coincidences R l l' := by
  by_cases hl' : ∀ x ∈ l', hole x = false
  swap
  · push Not at hl'
    obtain ⟨x, hx, hh⟩ := hl'
    have hh : hole x = true := by simpa using hh
    rw [normalProd_bad hφ (m := (.creation, x)) (by simp [hx]) (by simp [kills, hh]), coincidences_perm (u := l) (u' := l') (fun e => ?_), mul_zero]
    have := hl x (e.mem_iff.1 hx)
    rw [hh] at this; cases this
  by_cases hu' : ∀ x ∈ u', hole x = true
  swap
  · push Not at hu'
    obtain ⟨x, hx, hh⟩ := hu'
    have hh : hole x = false := by simpa using hh
    rw [normalProd_bad hφ (m := (.annihilation, x)) (by simp [hx]) (by simp [kills, hh]), coincidences_perm (u := u) (u' := u') (fun e => ?_), zero_mul]
    have := hu x (e.mem_iff.1 hx)
    rw [hh] at this; cases this
  have e1 : ∀ w : List Ω, List.ofFn (fun i : Fin w.length => w[i]) = w := fun w => by simp
  have e2 : ∀ (s : SQType) (w : List Ω), (List.ofFn (fun i : Fin w.length => op s w[i])).prod = (w.map (op s)).prod := fun s w => by
    congr 1
    conv_rhs => rw [← e1 w, List.map_ofFn]
    rfl
  rw [normalProd_good (by
    intro m hm
    rcases List.mem_append.1 hm with hm | hm
    · obtain ⟨x, hx, rfl⟩ := List.mem_map.1 hm
      exact hl' x hx
    · obtain ⟨x, hx, rfl⟩ := List.mem_map.1 hm
      simp [kills, hu' x (by simpa using hx)])]
  rw [List.map_append, List.prod_append, List.map_map, List.map_map, bra, mul_assoc]
  show φ ((u.map (op .creation)).prod * ((l.reverse.map (op .annihilation)).prod * ((l'.map (op .creation)).prod * (u'.reverse.map (op .annihilation)).prod))) = _
  have hll : ∀ i : Fin l.length, kills hole (SQType.other .creation, l[i]) = true := fun i => by
    simp [SQType.other, kills, hl _ (List.getElem_mem i.2)]
  by_cases h1 : l'.length = l.length
  · have := braket_det hcar hφ .creation u'.reverse (fun i : Fin l.length => l[i]) (fun i : Fin l.length => l'[i]) (u.map (op .creation)).prod hll
    have e3 : (List.ofFn (fun i : Fin l.length => op .creation l'[i])).prod = (l'.map (op .creation)).prod := by
      rw [← e2]
      congr 1
      exact List.ofFn_congr h1.symm _
    rw [e1, e3, coincide_det _ _ h1] at this
    refine this.trans ?_
    rw [mul_comm]
    congr 1
    have hul : ∀ i : Fin u.reverse.length, kills hole (SQType.other .annihilation, u.reverse[i]) = true := fun i => by
      have : u.reverse[i] ∈ u := by
        rw [← List.mem_reverse]; exact List.getElem_mem i.2
      simp only [SQType.other, kills, hu _ this]
    by_cases h2 : u'.length = u.length
    · have h2r : u'.reverse.length = u.reverse.length := by simpa using h2
      have := braket_det hcar hφ .annihilation [] (fun i : Fin u.reverse.length => u.reverse[i]) (fun i : Fin u.reverse.length => u'.reverse[i]) 1 hul
      have e3 : (List.ofFn (fun i : Fin u.reverse.length => op .annihilation u'.reverse[i])).prod = (u'.reverse.map (op .annihilation)).prod := by
        rw [← e2]
        congr 1
        exact List.ofFn_congr h2r.symm _
      rw [e1, e3, coincide_det _ _ h2r, coincidences_reverse, List.reverse_reverse] at this
      simp only [List.map_nil, List.prod_nil, one_mul, mul_one, hφ.one, SQType.other] at this
      exact this
    · have := braket_mismatch hcar hφ .annihilation [] (X := 1) (fun x b hx => by rw [one_mul]; exact hφ.left _ _ _ hx)
        (fun i : Fin u.reverse.length => u.reverse[i]) (fun i : Fin u'.reverse.length => u'.reverse[i]) hul (fun i => by
          have : u'.reverse[i] ∈ u' := by
            rw [← List.mem_reverse]; exact List.getElem_mem i.2
          simp only [kills, hu' _ this, Bool.not_true]) (by simpa using fun e => h2 e.symm)
      rw [e1, e2, List.reverse_reverse] at this
      simp only [List.map_nil, List.prod_nil, one_mul, mul_one, SQType.other] at this
      rw [coincidences_length h2]
      exact this
  · have := braket_mismatch hcar hφ .creation u'.reverse (X := (u.map (op .creation)).prod) (fun x b hx => by
        rw [← mul_assoc]
        have hp := pass_same hcar .creation x u
        have hq : (u.map (op .creation)).prod * op .creation x = (-1) ^ u.length * (op .creation x * (u.map (op .creation)).prod) := by
          rw [hp, ← mul_assoc, ← pow_add, Even.neg_one_pow ⟨_, rfl⟩, one_mul]
        rw [hq, mul_assoc, ← one_mul ((-1) ^ u.length * _), phi_sign, one_mul, mul_assoc, hφ.left _ _ _ hx, mul_zero])
      (fun i : Fin l.length => l[i]) (fun i : Fin l'.length => l'[i]) hll (fun i => hl' _ (List.getElem_mem i.2)) (fun e => h1 e.symm)
    rw [e1, e2] at this
    rw [coincidences_length h1, mul_zero]
    exact this

/-- operators that do not annihilate the vacuum: the product with an annihilator lowers their number by one -/
theorem lower_rank (hcar : IsCAR op) (hφ : IsVacuumExpectation op hole φ) {p : SQType × Ω} (hp : kills hole p = false) {X : B} :
    ∀ (w z : List (SQType × Ω)), (∀ m ∈ w, kills hole m = false) → (∀ m ∈ z, kills hole m = false) →
      (∀ w' : List (SQType × Ω), (∀ m ∈ w', kills hole m = false) → w'.length + 1 = z.length + w.length → φ (X * (w'.map (fun m => op m.1 m.2)).prod) = 0) →
      φ (X * ((z.map (fun m => op m.1 m.2)).prod * (op p.1.other p.2 * (w.map (fun m => op m.1 m.2)).prod))) = 0
  | [], z, _, _, _ => by
    have hk : kills hole (p.1.other, p.2) = true := by
      rcases p with ⟨_ | _, x⟩ <;> simp_all [kills, SQType.other]
    simp only [List.map_nil, List.prod_nil, mul_one]
    rw [← mul_assoc, hφ.right _ _ _ hk]
  | a :: w, z, hw, hz, h => by
    have hc : op p.1.other p.2 * op a.1 a.2 = (if p = a then 1 else 0) - op a.1 a.2 * op p.1.other p.2 := by
      rcases p with ⟨s, x⟩
      rcases a with ⟨t, y⟩
      by_cases hst : s = t
      · subst hst
        rw [hcar.contract]
        congr 1
        simp [Prod.ext_iff]
      · have ht : s.other = t := by cases s <;> cases t <;> simp_all [SQType.other]
        rw [if_neg (by intro e; exact hst (congrArg Prod.fst e)), ← ht, hcar.same, zero_sub]
    rw [List.map_cons, List.prod_cons, ← mul_assoc (op p.1.other p.2), hc, sub_mul, mul_sub, mul_sub, map_sub]
    have h1 : φ (X * ((z.map (fun m => op m.1 m.2)).prod * ((if p = a then 1 else 0) * (w.map (fun m => op m.1 m.2)).prod))) = 0 := by
      split
      · rw [one_mul, ← List.prod_append, ← List.map_append]
        refine h (z ++ w) (fun m hm => ?_) (by simp; omega)
        rcases List.mem_append.1 hm with hm | hm
        · exact hz m hm
        · exact hw m (by simp [hm])
      · simp
    have h2 := lower_rank hcar hφ hp (X := X) w (z ++ [a]) (fun m hm => hw m (by simp [hm])) (fun m hm => by
      rcases List.mem_append.1 hm with hm | hm
      · exact hz m hm
      · rw [List.mem_singleton.1 hm]; exact hw a (by simp)) (fun w' hw' hlen => h w' hw' (by simp at hlen ⊢; omega))
    rw [h1, zero_sub, neg_eq_zero, ← h2]
    congr 2
    simp [mul_assoc]

theorem rank_mismatch (hcar : IsCAR op) (hφ : IsVacuumExpectation op hole φ) : ∀ (P w : List (SQType × Ω)), (∀ m ∈ P, kills hole m = false) → (∀ m ∈ w, kills hole m = false) →
    P.length ≠ w.length → φ ((P.reverse.map (fun m => op m.1.other m.2)).prod * (w.map (fun m => op m.1 m.2)).prod) = 0
  | [], [], _, _, h => absurd rfl h
  | [], a :: w, _, hw, _ => by
    simp only [List.reverse_nil, List.map_nil, List.prod_nil, one_mul, List.map_cons, List.prod_cons]
    exact hφ.left _ _ _ (hw a (by simp))
  | p :: P, w, hP, hw, hne => by
    rw [List.reverse_cons, List.map_append, List.prod_append, List.map_singleton, List.prod_singleton, mul_assoc]
    have := lower_rank hcar hφ (hP p (by simp)) (X := (P.reverse.map (fun m => op m.1.other m.2)).prod) w [] hw (by simp) (fun w' hw' hlen =>
      rank_mismatch hcar hφ P w' (fun m hm => hP m (by simp [hm])) hw' (by simp at hne hlen; omega))
    simpa using this

theorem bra_eq (op : SQType → Ω → B) (u l : List Ω) :
    bra op u l = ((l.map (fun x => (SQType.creation, x)) ++ u.reverse.map (fun x => (SQType.annihilation, x))).reverse.map (fun m => op m.1.other m.2)).prod := by
  rw [List.reverse_append, List.map_append, List.prod_append, bra]
  simp only [← List.map_reverse, List.map_map, List.reverse_reverse]
  rfl

/-- the vacuum is connected with a determinant of `n` excited electrons only by normal products of `2 n` operators -/
theorem bra_normalProd_length (hcar : IsCAR op) (hφ : IsVacuumExpectation op hole φ) {u l : List Ω} (hu : ∀ x ∈ u, hole x = true) (hl : ∀ x ∈ l, hole x = false)
    {w : List (SQType × Ω)} (h : w.length ≠ u.length + l.length) : φ (bra op u l * normalProd hole op w) = 0 := by
  by_cases hw : ∀ m ∈ w, kills hole m = false
  · rw [normalProd_good hw, bra_eq]
    refine rank_mismatch hcar hφ _ _ (fun m hm => ?_) hw (by simp; omega)
    rcases List.mem_append.1 hm with hm | hm
    · obtain ⟨x, hx, rfl⟩ := List.mem_map.1 hm
      exact hl x hx
    · obtain ⟨x, hx, rfl⟩ := List.mem_map.1 hm
      simp [kills, hu x (by simpa using hx)]
  · push Not at hw
    obtain ⟨m, hm, hk⟩ := hw
    exact normalProd_bad hφ hm (by simpa using hk) _
end
end Wicked
