import Verif.Spec.NormalProduct
import Mathlib.Algebra.Algebra.Prod
import Mathlib.Algebra.Module.LinearMap.End
import Mathlib.Tactic.Ring
import Mathlib.Tactic.NoncommRing
import Mathlib.Tactic.Abel
/-! Wick's theorem for products of normal products, in an algebra with a parity automorphism -/
namespace Wicked
namespace NP
section
variable {M R C : Type} [DecidableEq M] [CommRing R] [Ring C] [Algebra R C]

/-- operators `f m`, of which those with `k m` annihilate the vacuum, with contractions `κ` -/
structure Sys (f : M → C) (k : M → Bool) (κ : M → M → R) (γ : C →ₐ[R] C) : Prop where
  anti : ∀ m n, k m = k n → f m * f n = -(f n * f m)
  mixed : ∀ m n, k m = true → k n = false → f m * f n + f n * f m = algebraMap R C (κ m n)
  zero : ∀ m n, ¬ (k m = true ∧ k n = false) → κ m n = 0
  inv : ∀ c, γ (γ c) = c
  odd : ∀ m, γ (f m) = - f m

variable {f : M → C} {k : M → Bool} {κ : M → M → R} {γ : C →ₐ[R] C}

/-- multiplication from the left inside a normal product -/
def wedge (f : M → C) (k : M → Bool) (γ : C →ₐ[R] C) (m : M) : C →ₗ[R] C :=
  if k m then (LinearMap.mulRight R (f m)).comp γ.toLinearMap else LinearMap.mulLeft R (f m)

theorem wedge_true {m : M} (h : k m = true) (c : C) : wedge f k γ m c = γ c * f m := by
  unfold wedge; rw [if_pos h]; rfl
theorem wedge_false {m : M} (h : k m = false) (c : C) : wedge f k γ m c = f m * c := by
  unfold wedge; rw [if_neg (by simp [h])]; rfl

/-- all contractions with `m` -/
def dv (f : M → C) (k : M → Bool) (γ : C →ₐ[R] C) (m : M) (c : C) : C := if k m then f m * c - γ c * f m else 0

theorem wedge_anti (h : Sys f k κ γ) (m n : M) : wedge f k γ m * wedge f k γ n = -(wedge f k γ n * wedge f k γ m) := by
  ext c
  rw [LinearMap.neg_apply, Module.End.mul_apply, Module.End.mul_apply]
  cases hm : k m <;> cases hn : k n
  · rw [wedge_false hm, wedge_false hn, wedge_false hm, wedge_false hn, ← mul_assoc, ← mul_assoc, h.anti m n (by rw [hm, hn]), neg_mul]
  · rw [wedge_false hm, wedge_true hn, wedge_false hm, wedge_true hn, map_mul, h.odd]; noncomm_ring
  · rw [wedge_true hm, wedge_false hn, wedge_true hm, wedge_false hn, map_mul, h.odd]; noncomm_ring
  · rw [wedge_true hm, wedge_true hn, wedge_true hm, wedge_true hn, map_mul, map_mul, h.odd, h.odd, h.inv, mul_assoc, mul_assoc, neg_mul, neg_mul, h.anti m n (by rw [hm, hn])]
    simp

theorem mul_dv (m : M) (c : C) : f m * c = wedge f k γ m c + dv f k γ m c := by
  cases hm : k m
  · rw [wedge_false hm]; simp [dv, hm]
  · rw [wedge_true hm]; simp [dv, hm]

theorem dv_mul (m : M) (b c : C) : dv f k γ m (b * c) = dv f k γ m b * c + γ b * dv f k γ m c := by
  unfold dv
  split
  · rw [map_mul]; noncomm_ring
  · simp

theorem dv_wedge (h : Sys f k κ γ) (m n : M) (c : C) :
    dv f k γ m (wedge f k γ n c) = κ m n • c - wedge f k γ n (dv f k γ m c) := by
  cases hm : k m
  · rw [h.zero m n (by simp [hm])]
    simp [dv, hm]
  · unfold dv
    rw [if_pos hm]
    cases hn : k n
    · rw [wedge_false hn, wedge_false hn, map_mul, h.odd, Algebra.smul_def, ← h.mixed m n hm hn]
      simp only [hm, if_true]
      noncomm_ring
    · rw [wedge_true hn, wedge_true hn, h.zero m n (by simp [hn]), map_mul, h.odd, h.inv]
      simp only [hm, if_true, map_sub, map_mul, h.odd, h.inv]
      have := h.anti m n (by rw [hm, hn])
      have e : c * -f n * f m = c * f m * f n := by rw [mul_assoc, mul_assoc, this]; simp
      rw [e, zero_smul]
      noncomm_ring

theorem wedge_mul (m : M) (b c : C) : wedge f k γ m b * c = wedge f k γ m (b * c) + γ b * dv f k γ m c := by
  cases hm : k m
  · rw [wedge_false hm, wedge_false hm]; simp [dv, hm, mul_assoc]
  · rw [wedge_true hm, wedge_true hm]
    simp only [dv, hm, if_true, map_mul]; noncomm_ring

/-- normal product -/
def nprod (f : M → C) (k : M → Bool) (γ : C →ₐ[R] C) (l : List M) : C := (l.map (wedge f k γ)).prod 1

theorem nprod_nil : nprod f k γ [] = 1 := rfl
theorem nprod_cons (m : M) (l : List M) : nprod f k γ (m :: l) = wedge f k γ m (nprod f k γ l) := rfl

theorem gamma_wedge (h : Sys f k κ γ) (m : M) (c : C) : γ (wedge f k γ m c) = - wedge f k γ m (γ c) := by
  cases hm : k m
  · rw [wedge_false hm, wedge_false hm, map_mul, h.odd, neg_mul]
  · rw [wedge_true hm, wedge_true hm, map_mul, h.odd, mul_neg]

theorem gamma_nprod (h : Sys f k κ γ) (l : List M) : γ (nprod f k γ l) = (-1 : R) ^ l.length • nprod f k γ l := by
  induction l with
  | nil => simp [nprod_nil]
  | cons m l ih =>
    rw [nprod_cons, gamma_wedge h, ih, map_smul, List.length_cons, pow_succ, mul_neg_one, neg_smul]

/-- sum over the entries of a list, with alternating signs -/
def alt (l : List M) (g : M → R) (F : M → C) : C := (l.map (fun z => ((-1 : R) ^ (l.idxOf z) * g z) • F z)).sum

theorem smul_list_sum (r : R) (l : List M) (F : M → C) : r • (l.map F).sum = (l.map (fun z => r • F z)).sum := by
  induction l with
  | nil => simp
  | cons a l ih => simp only [List.map_cons, List.sum_cons, smul_add, ih]

theorem alt_cons {m : M} {l : List M} (hm : m ∉ l) (g : M → R) (F : M → C) : alt (m :: l) g F = g m • F m - alt l g F := by
  unfold alt
  rw [List.map_cons, List.sum_cons, List.idxOf_cons_self, pow_zero, one_mul, sub_eq_add_neg]
  congr 1
  rw [show ∀ c : C, -c = (-1 : R) • c from fun c => by simp, smul_list_sum]
  congr 1
  apply List.map_congr_left
  intro z hz
  rw [List.idxOf_cons_ne _ (by rintro rfl; exact hm hz), pow_succ, smul_smul]
  congr 1
  ring

theorem alt_append {l l' : List M} (hd : ∀ z ∈ l', z ∉ l) (g : M → R) (F : M → C) :
    alt (l ++ l') g F = alt l g F + (-1 : R) ^ l.length • alt l' g F := by
  unfold alt
  rw [List.map_append, List.sum_append]
  congr 1
  · congr 1
    apply List.map_congr_left
    intro z hz
    rw [List.idxOf_append_of_mem hz]
  · rw [smul_list_sum]
    congr 1
    apply List.map_congr_left
    intro z hz
    rw [List.idxOf_append_of_notMem (hd z hz), smul_smul, pow_add, mul_assoc]

theorem alt_congr {l : List M} {g : M → R} {F G : M → C} (h : ∀ z ∈ l, F z = G z) : alt l g F = alt l g G := by
  unfold alt
  congr 1
  apply List.map_congr_left
  intro z hz; rw [h z hz]

theorem alt_congr_g {l : List M} {g g' : M → R} {F : M → C} (h : ∀ z ∈ l, g z = g' z) : alt l g F = alt l g' F := by
  unfold alt
  congr 1
  apply List.map_congr_left
  intro z hz; rw [h z hz]

theorem alt_map {C' : Type} [Ring C'] [Algebra R C'] (T : C →ₗ[R] C') (l : List M) (g : M → R) (F : M → C) : T (alt l g F) = alt l g (fun z => T (F z)) := by
  unfold alt
  rw [map_list_sum, List.map_map]
  congr 1
  apply List.map_congr_left
  intro z _; simp

theorem dv_nprod (h : Sys f k κ γ) (m : M) (l : List M) (hn : l.Nodup) :
    dv f k γ m (nprod f k γ l) = alt l (κ m) (fun z => nprod f k γ (l.erase z)) := by
  induction l with
  | nil =>
    rw [nprod_nil]; unfold dv alt
    simp
  | cons n l ih =>
    rw [List.nodup_cons] at hn
    rw [nprod_cons, dv_wedge h, ih hn.2, alt_cons hn.1, List.erase_cons_head, alt_map]
    congr 1
    apply alt_congr
    intro z hz
    rw [List.erase_cons_tail (by simp; rintro rfl; exact hn.1 hz), nprod_cons]

/-- product of normal products -/
def qprod (f : M → C) (k : M → Bool) (γ : C →ₐ[R] C) (ls : List (List M)) : C := (ls.map (nprod f k γ)).prod

theorem dv_qprod (h : Sys f k κ γ) (m : M) (ls : List (List M)) (hn : ls.flatten.Nodup) :
    dv f k γ m (qprod f k γ ls) = alt ls.flatten (κ m) (fun z => qprod f k γ (ls.map (fun l => l.erase z))) := by
  induction ls with
  | nil => unfold qprod dv alt; simp
  | cons l ls ih =>
    rw [List.flatten_cons, List.nodup_append] at hn
    have hd : ∀ z ∈ ls.flatten, z ∉ l := fun z hz hz' => hn.2.2 z hz' z hz rfl
    have hq : ∀ l ls, qprod f k γ (l :: ls) = nprod f k γ l * qprod f k γ ls := fun l ls => by
      unfold qprod; rw [List.map_cons, List.prod_cons]
    rw [hq, dv_mul, dv_nprod h m l hn.1, gamma_nprod h, ih hn.2.1, List.flatten_cons, alt_append hd]
    congr 1
    · rw [← LinearMap.mulRight_apply R, alt_map]
      apply alt_congr
      intro z hz
      rw [LinearMap.mulRight_apply, List.map_cons, hq]
      congr 2
      conv_lhs => rw [← List.map_id ls]
      apply List.map_congr_left
      intro l' hl'
      rw [List.erase_of_not_mem]
      · rfl
      · intro hz'; exact hd z (List.mem_flatten.2 ⟨l', hl', hz'⟩) hz
    · rw [smul_mul_assoc, ← LinearMap.mulLeft_apply R, alt_map]
      congr 1
      apply alt_congr
      intro z hz
      rw [LinearMap.mulLeft_apply, List.map_cons, hq, List.erase_of_not_mem (hd z hz)]

theorem erase_flatten {z : M} {ls : List (List M)} (hn : ls.flatten.Nodup) : (ls.map (fun l => l.erase z)).flatten = ls.flatten.erase z := by
  induction ls with
  | nil => rfl
  | cons l ls ih =>
    rw [List.flatten_cons, List.nodup_append] at hn
    rw [List.map_cons, List.flatten_cons, List.flatten_cons, ih hn.2.1]
    by_cases hz : z ∈ l
    · rw [List.erase_append_left _ hz, List.erase_of_not_mem (fun h => hn.2.2 z hz z h rfl)]
    · rw [List.erase_append_right _ hz, List.erase_of_not_mem hz]

/-- Wick's theorem: a function `W` of the list of operators that satisfies the recursion of the sum over all
contractions between different factors is the product of the normal products of the factors. -/
theorem wick_rec (h : Sys f k κ γ) (g : M → M → R) (W : List M → C)
    (P : List (List M) → Prop) (hP0 : ∀ l ls, P (l :: ls) → P ls) (hP1 : ∀ y l ls, P ((y :: l) :: ls) → P (l :: ls))
    (hPe : ∀ z l ls, P (l :: ls) → P (l :: ls.map (fun l => l.erase z)))
    (hPn : ∀ ls, P ls → ls.flatten.Nodup)
    (hg0 : ∀ y l ls, P ((y :: l) :: ls) → ∀ z ∈ l, g y z = 0)
    (hg1 : ∀ y l ls, P ((y :: l) :: ls) → ∀ z ∈ ls.flatten, g y z = κ y z)
    (h0 : W [] = 1)
    (hW : ∀ y l ls, P ((y :: l) :: ls) → W (y :: (l ++ ls.flatten)) = wedge f k γ y (W (l ++ ls.flatten)) +
      alt (l ++ ls.flatten) (g y) (fun z => W ((l ++ ls.flatten).erase z)))
    (ls : List (List M)) (hls : P ls) : W ls.flatten = qprod f k γ ls := by
  have hq : ∀ l ls, qprod f k γ (l :: ls) = nprod f k γ l * qprod f k γ ls := fun l ls => by
    unfold qprod; rw [List.map_cons, List.prod_cons]
  induction hN : ls.flatten.length + ls.length using Nat.strong_induction_on generalizing ls with
  | _ N ih =>
    subst hN
    cases ls with
    | nil => simpa [qprod] using h0
    | cons l ls =>
      cases l with
      | nil =>
        rw [List.flatten_cons, List.nil_append, hq, nprod_nil, one_mul]
        exact ih _ (by simp) ls (hP0 _ _ hls) rfl
      | cons y l =>
        have hn := hPn _ hls
        have hn' := hPn _ (hP1 _ _ _ hls)
        rw [List.flatten_cons, List.nodup_append] at hn'
        have hd : ∀ z ∈ ls.flatten, z ∉ l := fun z hz hz' => hn'.2.2 z hz' z hz rfl
        rw [List.flatten_cons, List.cons_append, hW y l ls hls, hq, nprod_cons, wedge_mul, dv_qprod h y ls hn'.2.1,
          gamma_nprod h, alt_append hd]
        have i1 := ih _ (by simp) (l :: ls) (hP1 _ _ _ hls) rfl
        rw [List.flatten_cons] at i1
        rw [i1, hq]
        congr 1
        have z1 : ∀ F : M → C, alt l (g y) F = 0 := by
          intro F
          unfold alt
          rw [List.map_congr_left (g := fun _ => (0 : C)) (fun z hz => by rw [hg0 y l ls hls z hz, mul_zero, zero_smul])]
          simp
        rw [z1, zero_add, smul_mul_assoc]
        congr 1
        rw [← LinearMap.mulLeft_apply R, alt_map, alt_congr_g (hg1 y l ls hls)]
        apply alt_congr
        intro z hz
        rw [LinearMap.mulLeft_apply, ← hq, List.erase_append_right _ (hd z hz), ← erase_flatten hn'.2.1, ← List.flatten_cons]
        apply ih _ _ _ (hPe z _ _ (hP1 _ _ _ hls)) rfl
        rw [List.flatten_cons, erase_flatten hn'.2.1, List.length_append, List.length_erase_of_mem hz]
        simp
        omega
end
end NP
end Wicked
