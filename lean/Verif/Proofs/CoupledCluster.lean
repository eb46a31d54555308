import Verif.Proofs.Projection
import Mathlib.RingTheory.Nilpotent.Exp
import Mathlib.Algebra.Algebra.Bilinear
import Mathlib.LinearAlgebra.Span.Basic
/-! # The similarity transformation with an excitation operator -/
namespace Wicked
open Finset

section
variable {R B : Type} [CommRing R] [Ring B] [Algebra R B]

/-- `b ↦ b T - T b` -/
def adR (R : Type) {B : Type} [CommRing R] [Ring B] [Algebra R B] (T : B) : Module.End R B := LinearMap.mulRight R T - LinearMap.mulLeft R T

theorem adR_apply (T b : B) : adR R T b = b * T - T * b := rfl

theorem adR_mul (T x y : B) : adR R T (x * y) = adR R T x * y + x * adR R T y := by
  simp only [adR_apply]; noncomm_ring

theorem adR_pow_succ (T b : B) (n : Nat) : (adR R T ^ (n + 1)) b = (adR R T ^ n) (adR R T b) := by
  rw [pow_succ]; rfl

theorem adR_pow_le {T b : B} {n m : Nat} (h : (adR R T ^ n) b = 0) (hn : n ≤ m) : (adR R T ^ m) b = 0 := by
  obtain ⟨k, rfl⟩ := Nat.exists_eq_add_of_le hn
  rw [add_comm, pow_add, Module.End.mul_apply, h, map_zero]

theorem adR_kernel (T : B) : ∀ (k p q : Nat) (x y : B), p + q = k → (adR R T ^ (p + 1)) x = 0 → (adR R T ^ (q + 1)) y = 0 → (adR R T ^ (k + 1)) (x * y) = 0
  | 0, p, q, x, y, hk, hx, hy => by
    obtain rfl : p = 0 := by omega
    obtain rfl : q = 0 := by omega
    rw [zero_add, pow_one] at hx hy ⊢
    rw [adR_mul, hx, hy, zero_mul, mul_zero, add_zero]
  | k + 1, p, q, x, y, hk, hx, hy => by
    rw [adR_pow_succ, adR_mul, map_add]
    have h1 : (adR R T ^ (k + 1)) (adR R T x * y) = 0 := by
      match p, hx with
      | 0, hx =>
        rw [zero_add, pow_one] at hx
        rw [hx, zero_mul, map_zero]
      | p + 1, hx => exact adR_kernel T k p q _ _ (by omega) (by rw [← adR_pow_succ]; exact hx) hy
    have h2 : (adR R T ^ (k + 1)) (x * adR R T y) = 0 := by
      match q, hy with
      | 0, hy =>
        rw [zero_add, pow_one] at hy
        rw [hy, mul_zero, map_zero]
      | q + 1, hy => exact adR_kernel T k p q _ _ (by omega) hx (by rw [← adR_pow_succ]; exact hy)
    rw [h1, h2, add_zero]

theorem adR_one (T : B) : adR R T 1 = 0 := by rw [adR_apply]; simp

/-- factors with vanishing double commutators -/
theorem adR_list (T : B) (l : List B) (h : ∀ x ∈ l, (adR R T ^ 2) x = 0) : (adR R T ^ (l.length + 1)) l.prod = 0 := by
  induction l with
  | nil => rw [List.prod_nil, List.length_nil, zero_add, pow_one, adR_one]
  | cons a l ih =>
    rw [List.prod_cons]
    exact adR_kernel T _ 1 l.length _ _ (by simp; omega) (h a (by simp)) (ih (fun x hx => h x (by simp [hx])))

variable [Algebra ℚ B]

/-- the Baker-Campbell-Hausdorff formula for a nilpotent `T` -/
theorem exp_conj {T H : B} (hT : IsNilpotent T) {m : Nat} (h : (adR R T ^ m) H = 0) :
    IsNilpotent.exp (-T) * H * IsNilpotent.exp T = ∑ i ∈ range m, ((i.factorial : ℚ)⁻¹) • (adR R T ^ i) H := by
  obtain ⟨k, hk⟩ := hT
  have hr : (LinearMap.mulRight R T) ^ k = 0 := by rw [LinearMap.pow_mulRight, hk]; ext; simp
  have hnk : (-T) ^ k = 0 := by rw [neg_pow, hk, mul_zero]
  have hl : (LinearMap.mulLeft R (-T)) ^ k = 0 := by rw [LinearMap.pow_mulLeft, hnk]; ext; simp
  have hadd : adR R T = LinearMap.mulRight R T + LinearMap.mulLeft R (-T) := by
    ext b
    rw [adR_apply, LinearMap.add_apply, LinearMap.mulRight_apply, LinearMap.mulLeft_apply, neg_mul, sub_eq_add_neg]
  have hc : Commute (LinearMap.mulRight R T) (LinearMap.mulLeft R (-T)) := by
    ext b
    simp [mul_assoc]
  have hD : IsNilpotent (adR R T) := by
    rw [hadd]
    exact hc.isNilpotent_add ⟨k, hr⟩ ⟨k, hl⟩
  have e1 : IsNilpotent.exp (adR R T) = IsNilpotent.exp (LinearMap.mulRight R T) * IsNilpotent.exp (LinearMap.mulLeft R (-T)) := by
    rw [hadd]
    exact IsNilpotent.exp_add_of_commute hc ⟨k, hr⟩ ⟨k, hl⟩
  have e2 : IsNilpotent.exp (adR R T) H = IsNilpotent.exp (-T) * H * IsNilpotent.exp T := by
    rw [e1, Module.End.mul_apply, IsNilpotent.exp_eq_sum hr, IsNilpotent.exp_eq_sum hl, IsNilpotent.exp_eq_sum hk, IsNilpotent.exp_eq_sum hnk]
    simp only [LinearMap.sum_apply, LinearMap.smul_apply, LinearMap.pow_mulRight, LinearMap.mulRight_apply, Finset.mul_sum, Finset.sum_mul, mul_smul_comm, smul_mul_assoc,
      LinearMap.pow_mulLeft, LinearMap.mulLeft_apply]
  rw [← e2]
  have := IsNilpotent.exp_smul_eq_sum (A := Module.End R B) (M := B) (a := adR R T) (m := H) (k := m) h hD
  exact this
end

section
variable {Ω R B : Type} [DecidableEq Ω] [CommRing R] [Ring B] [Algebra R B] {op : SQType → Ω → B} {hole : Ω → Bool}

theorem good_anti (hcar : IsCAR op) {m n : SQType × Ω} (hm : kills hole m = false) (hn : kills hole n = false) : op m.1 m.2 * op n.1 n.2 = -(op n.1 n.2 * op m.1 m.2) := by
  obtain ⟨s, x⟩ := m
  obtain ⟨t, y⟩ := n
  cases s <;> cases t <;> simp only [kills, Bool.not_eq_false'] at hm hn ⊢
  · exact hcar.same _ _ _
  · have := hcar.mixed y x
    rw [if_neg (fun e => by rw [e, hm] at hn; cases hn)] at this
    rw [eq_neg_iff_add_eq_zero, add_comm]; exact this
  · have := hcar.mixed x y
    rw [if_neg (fun e => by rw [e, hn] at hm; cases hm)] at this
    rw [eq_neg_iff_add_eq_zero]; exact this
  · exact hcar.same _ _ _

variable [Algebra ℚ B]

theorem car_square (hcar : IsCAR op) (s : SQType) (x : Ω) : op s x * op s x = 0 := by
  have := hcar.same s x x
  have h2 : (2 : ℚ) • (op s x * op s x) = 0 := by
    rw [two_smul]; nth_rewrite 1 [this]; rw [neg_add_cancel]
  have := (smul_eq_zero (R := ℚ) (M := B)).1 h2
  simpa using this

theorem good_absorb (hcar : IsCAR op) {m : SQType × Ω} (hm : kills hole m = false) {l : List (SQType × Ω)} (hl : ∀ n ∈ l, kills hole n = false) (h : m ∈ l) :
    op m.1 m.2 * (l.map (fun n => op n.1 n.2)).prod = 0 := by
  induction l with
  | nil => cases h
  | cons n l ih =>
    rw [List.map_cons, List.prod_cons, ← mul_assoc]
    by_cases e : m = n
    · subst e
      rw [car_square hcar, zero_mul]
    · have hl' : m ∈ l := by
        rcases List.mem_cons.1 h with h | h
        · exact absurd h e
        · exact h
      rw [good_anti hcar hm (hl n (by simp)), neg_mul, mul_assoc, ih (fun n hn => hl n (by simp [hn])) hl', mul_zero, neg_zero]

theorem good_repeat (hcar : IsCAR op) {l : List (SQType × Ω)} (hl : ∀ n ∈ l, kills hole n = false) (h : ¬ l.Nodup) : (l.map (fun n => op n.1 n.2)).prod = 0 := by
  induction l with
  | nil => exact absurd List.nodup_nil h
  | cons n l ih =>
    rw [List.map_cons, List.prod_cons]
    by_cases e : n ∈ l
    · exact good_absorb hcar (hl n (by simp)) (fun n hn => hl n (by simp [hn])) e
    · rw [ih (fun n hn => hl n (by simp [hn])) (fun hn => h (List.nodup_cons.2 ⟨e, hn⟩)), mul_zero]

/-- linear combinations of products of at least `k` (an even number of) operators from `M` -/
def wordSpan (R : Type) [CommRing R] [Algebra R B] (op : SQType → Ω → B) (M : Finset (SQType × Ω)) (k : Nat) : Submodule R B :=
  Submodule.span R {b | ∃ w : List (SQType × Ω), (∀ m ∈ w, m ∈ M) ∧ Even w.length ∧ k ≤ w.length ∧ b = (w.map (fun m => op m.1 m.2)).prod}

theorem wordSpan_mul {M : Finset (SQType × Ω)} {k l : Nat} {a b : B} (ha : a ∈ wordSpan R op M k) (hb : b ∈ wordSpan R op M l) : a * b ∈ wordSpan R op M (k + l) := by
  induction ha using Submodule.span_induction with
  | mem a ha =>
    obtain ⟨w, h1, h2, h3, rfl⟩ := ha
    induction hb using Submodule.span_induction with
    | mem b hb =>
      obtain ⟨w', h1', h2', h3', rfl⟩ := hb
      refine Submodule.subset_span ⟨w ++ w', ?_, ?_, ?_, ?_⟩
      · intro m hm
        rcases List.mem_append.1 hm with h | h
        exacts [h1 m h, h1' m h]
      · rw [List.length_append]; exact h2.add h2'
      · rw [List.length_append]; omega
      · rw [List.map_append, List.prod_append]
    | zero => rw [mul_zero]; exact zero_mem _
    | add x y _ _ hx hy => rw [mul_add]; exact add_mem hx hy
    | smul r x _ hx => rw [mul_smul_comm]; exact Submodule.smul_mem _ _ hx
  | zero => rw [zero_mul]; exact zero_mem _
  | add x y _ _ hx hy => rw [add_mul]; exact add_mem hx hy
  | smul r x _ hx => rw [smul_mul_assoc]; exact Submodule.smul_mem _ _ hx

theorem wordSpan_mono {M : Finset (SQType × Ω)} {k l : Nat} (h : l ≤ k) : wordSpan R op M k ≤ wordSpan R op M l := by
  apply Submodule.span_mono
  rintro b ⟨w, h1, h2, h3, rfl⟩
  exact ⟨w, h1, h2, by omega, rfl⟩

theorem wordSpan_pow {M : Finset (SQType × Ω)} {a : B} (ha : a ∈ wordSpan R op M 1) (n : Nat) : a ^ n ∈ wordSpan R op M n := by
  induction n with
  | zero => rw [pow_zero]; exact Submodule.subset_span ⟨[], by simp, by simp, le_refl _, rfl⟩
  | succ n ih => rw [pow_succ]; exact wordSpan_mul ih ha

theorem wordSpan_zero (hcar : IsCAR op) {M : Finset (SQType × Ω)} (hM : ∀ m ∈ M, kills hole m = false) {k : Nat} (hk : M.card < k) {a : B} (ha : a ∈ wordSpan R op M k) : a = 0 := by
  induction ha using Submodule.span_induction with
  | mem a ha =>
    obtain ⟨w, h1, _, h3, rfl⟩ := ha
    apply good_repeat hcar (fun m hm => hM m (h1 m hm))
    intro hn
    have : w.toFinset ⊆ M := fun m hm => h1 m (List.mem_toFinset.1 hm)
    have := Finset.card_le_card this
    rw [List.toFinset_card_of_nodup hn] at this
    omega
  | zero => rfl
  | add x y _ _ hx hy => rw [hx, hy, add_zero]
  | smul r x _ hx => rw [hx, smul_zero]

theorem excitation_nilpotent (hcar : IsCAR op) {M : Finset (SQType × Ω)} (hM : ∀ m ∈ M, kills hole m = false) {T : B} (hT : T ∈ wordSpan R op M 1) : IsNilpotent T :=
  ⟨M.card + 1, wordSpan_zero hcar hM (Nat.lt_succ_self _) (wordSpan_pow hT _)⟩

omit [Algebra ℚ B] in
theorem good_pass (hcar : IsCAR op) {m : SQType × Ω} (hm : kills hole m = false) (w : List (SQType × Ω)) (hw : ∀ n ∈ w, kills hole n = false) :
    op m.1 m.2 * (w.map (fun n => op n.1 n.2)).prod = (-1) ^ w.length * ((w.map (fun n => op n.1 n.2)).prod * op m.1 m.2) := by
  induction w with
  | nil => simp
  | cons n w ih =>
    rw [List.map_cons, List.prod_cons, ← mul_assoc, good_anti hcar hm (hw n (by simp)), neg_mul, mul_assoc, ih (fun n hn => hw n (by simp [hn])), List.length_cons, pow_succ]
    have : Commute ((-1 : B) ^ w.length) (op n.1 n.2) := (Commute.neg_one_left _).pow_left _
    simp only [← mul_assoc]
    rw [← this.eq]
    simp [mul_assoc]

/-- the algebra of the operators that do not annihilate the vacuum -/
def creators (R : Type) [CommRing R] [Algebra R B] (op : SQType → Ω → B) (hole : Ω → Bool) : Subalgebra R B :=
  Algebra.adjoin R {b | ∃ m : SQType × Ω, kills hole m = false ∧ b = op m.1 m.2}

omit [DecidableEq Ω] [Algebra ℚ B] in
theorem creators_word {w : List (SQType × Ω)} (hw : ∀ n ∈ w, kills hole n = false) : (w.map (fun n => op n.1 n.2)).prod ∈ creators R op hole := by
  apply Subalgebra.list_prod_mem
  intro b hb
  obtain ⟨m, hm, rfl⟩ := List.mem_map.1 hb
  exact Algebra.subset_adjoin ⟨m, hw m hm, rfl⟩

omit [Algebra ℚ B] in
theorem bad_pass (hcar : IsCAR op) {m : SQType × Ω} (w : List (SQType × Ω)) (hw : ∀ n ∈ w, kills hole n = false) :
    op m.1 m.2 * (w.map (fun n => op n.1 n.2)).prod - (-1) ^ w.length * ((w.map (fun n => op n.1 n.2)).prod * op m.1 m.2) ∈ creators R op hole := by
  induction w with
  | nil => simp
  | cons n w ih =>
    have ih := ih (fun n hn => hw n (by simp [hn]))
    have hx : ∃ c ∈ creators R op hole, op m.1 m.2 * op n.1 n.2 = c - op n.1 n.2 * op m.1 m.2 := by
      obtain ⟨s, x⟩ := m
      obtain ⟨t, y⟩ := n
      cases s <;> cases t
      · exact ⟨0, zero_mem _, by rw [zero_sub]; exact hcar.same _ _ _⟩
      · refine ⟨if y = x then 1 else 0, by split; exacts [one_mem _, zero_mem _], ?_⟩
        rw [← hcar.mixed y x]; abel
      · refine ⟨if x = y then 1 else 0, by split; exacts [one_mem _, zero_mem _], ?_⟩
        rw [← hcar.mixed x y]; abel
      · exact ⟨0, zero_mem _, by rw [zero_sub]; exact hcar.same _ _ _⟩
    obtain ⟨c, hc, e⟩ := hx
    rw [List.map_cons, List.prod_cons, ← mul_assoc, e, sub_mul, mul_assoc, List.length_cons, pow_succ]
    have h1 : c * (w.map (fun n => op n.1 n.2)).prod ∈ creators R op hole := mul_mem hc (creators_word (fun n hn => hw n (by simp [hn])))
    have h2 : op n.1 n.2 * (op m.1 m.2 * (w.map (fun n => op n.1 n.2)).prod - (-1) ^ w.length * ((w.map (fun n => op n.1 n.2)).prod * op m.1 m.2)) ∈ creators R op hole :=
      mul_mem (Algebra.subset_adjoin ⟨n, hw n (by simp), rfl⟩) ih
    have hs : Commute ((-1 : B) ^ w.length) (op n.1 n.2) := (Commute.neg_one_left _).pow_left _
    have := _root_.sub_mem h1 h2
    refine (congrArg (· ∈ creators R op hole) ?_).mp this
    have h3 : op n.1 n.2 * ((-1) ^ w.length * ((w.map (fun n => op n.1 n.2)).prod * op m.1 m.2)) = (-1) ^ w.length * (op n.1 n.2 * ((w.map (fun n => op n.1 n.2)).prod * op m.1 m.2)) := by
      rw [← mul_assoc, ← hs.eq, mul_assoc]
    rw [mul_sub, h3]
    simp only [mul_neg, mul_one, neg_mul, mul_assoc]
    abel

omit [Algebra ℚ B] in
theorem wordSpan_commute (hcar : IsCAR op) {M : Finset (SQType × Ω)} (hM : ∀ m ∈ M, kills hole m = false) {T : B} (hT : T ∈ wordSpan R op M 1) {c : B} (hc : c ∈ creators R op hole) :
    c * T = T * c := by
  induction hc using Algebra.adjoin_induction with
  | mem b hb =>
    obtain ⟨m, hm, rfl⟩ := hb
    induction hT using Submodule.span_induction with
    | mem a ha =>
      obtain ⟨w, h1, h2, _, rfl⟩ := ha
      rw [good_pass hcar hm w (fun n hn => hM n (h1 n hn)), h2.neg_one_pow, one_mul]
    | zero => simp
    | add x y _ _ hx hy => rw [mul_add, add_mul, hx, hy]
    | smul r x _ hx => rw [mul_smul_comm, smul_mul_assoc, hx]
  | algebraMap r => exact Algebra.commutes _ _
  | add x y _ _ hx hy => rw [mul_add, add_mul, hx, hy]
  | mul x y _ _ hx hy => rw [mul_assoc, hy, ← mul_assoc, hx, mul_assoc]

omit [Algebra ℚ B] in
theorem double_commutator (hcar : IsCAR op) {M : Finset (SQType × Ω)} (hM : ∀ m ∈ M, kills hole m = false) {T : B} (hT : T ∈ wordSpan R op M 1) (m : SQType × Ω) :
    (adR R T ^ 2) (op m.1 m.2) = 0 := by
  have h1 : adR R T (op m.1 m.2) ∈ creators R op hole := by
    have key : ∀ T ∈ wordSpan R op M 1, op m.1 m.2 * T - T * op m.1 m.2 ∈ creators R op hole := by
      intro T hT
      induction hT using Submodule.span_induction with
      | mem a ha =>
        obtain ⟨w, h1, h2, _, rfl⟩ := ha
        have := bad_pass (R := R) (hole := hole) hcar (m := m) w (fun n hn => hM n (h1 n hn))
        rw [h2.neg_one_pow, one_mul] at this
        exact this
      | zero => simp
      | add x y _ _ hx hy => rw [mul_add, add_mul, add_sub_add_comm]; exact add_mem hx hy
      | smul r x _ hx => rw [mul_smul_comm, smul_mul_assoc, ← smul_sub]; exact Subalgebra.smul_mem _ hx r
    exact key T hT
  rw [pow_two, Module.End.mul_apply, adR_apply, wordSpan_commute hcar hM hT h1, sub_self]

omit [Algebra ℚ B] in
theorem normalProd_kernel (hcar : IsCAR op) {M : Finset (SQType × Ω)} (hM : ∀ m ∈ M, kills hole m = false) {T : B} (hT : T ∈ wordSpan R op M 1) (l : List (SQType × Ω)) :
    (adR R T ^ (l.length + 1)) (normalProd hole op l) = 0 := by
  unfold normalProd
  rw [← List.prod_append, ← List.map_append]
  have hlen : (l.filter (fun m => !kills hole m) ++ l.filter (fun m => kills hole m)).length = l.length := by
    have := List.length_eq_length_filter_add (l := l) (fun m => kills hole m)
    rw [List.length_append, this, add_comm]
  have h := adR_list (R := R) T ((l.filter (fun m => !kills hole m) ++ l.filter (fun m => kills hole m)).map (fun m => op m.1 m.2)) (by
    intro x hx
    obtain ⟨m, _, rfl⟩ := List.mem_map.1 hx
    exact double_commutator hcar hM hT m)
  rw [List.length_map, hlen] at h
  generalize ((l.filter (fun m => !kills hole m) ++ l.filter (fun m => kills hole m)).map (fun m => op m.1 m.2)).prod = b at h
  have : ∀ z : ℤ, (z : B) * b = z • b := fun z => (zsmul_eq_mul b z).symm
  rw [this, map_zsmul, h, smul_zero]
end
end Wicked
