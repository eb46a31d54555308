import Verif.Spec.Rational
import Mathlib.Tactic.FieldSimp
import Mathlib.Tactic.Ring
import Mathlib.Data.Int.GCD
import Mathlib.Data.Rat.Lemmas
import Mathlib.Data.Int.Cast.Field
import Mathlib.Algebra.Order.Field.Basic
/-! # Lemmas about `rational` -/
namespace Wicked.Rational

theorem reduce_num (r : Rational) (h : Int.gcd r.num r.den ≠ 0) :
    (reduce r).num = r.num / (Int.gcd r.num r.den : Int) ∧
    (reduce r).den = r.den / (Int.gcd r.num r.den : Int) := by
  unfold reduce
  simp only
  split
  · exact ⟨Int.tdiv_eq_ediv_of_dvd (Int.gcd_dvd_left ..), Int.tdiv_eq_ediv_of_dvd (Int.gcd_dvd_right ..)⟩
  · have : (Int.gcd r.num r.den) = 1 := by omega
    simp [this]

theorem gcd_ne_zero_of_den {r : Rational} (h : r.den ≠ 0) : Int.gcd r.num r.den ≠ 0 := by
  intro h0
  rw [Int.gcd_eq_zero_iff] at h0
  exact h h0.2

theorem toRat_reduce (r : Rational) : toRat (reduce r) = toRat r := by
  by_cases hg : Int.gcd r.num r.den = 0
  · have : reduce r = r := by unfold reduce; simp [hg]
    rw [this]
  · obtain ⟨h1, h2⟩ := reduce_num r hg
    unfold toRat
    rw [h1, h2]
    have hgq : ((Int.gcd r.num r.den : Int) : ℚ) ≠ 0 := by exact_mod_cast hg
    rw [Int.cast_div (Int.gcd_dvd_left ..) hgq, Int.cast_div (Int.gcd_dvd_right ..) hgq]
    exact div_div_div_cancel_right₀ hgq _ _

theorem reduce_coprime (r : Rational) (h : Int.gcd r.num r.den ≠ 0) :
    Int.gcd (reduce r).num (reduce r).den = 1 := by
  obtain ⟨h1, h2⟩ := reduce_num r h
  rw [h1, h2]
  exact Int.gcd_div_gcd_div_gcd (Nat.pos_of_ne_zero h)

theorem canon_reduce (r : Rational) (h : 0 < r.den) : Canon (reduce r) := by
  have hg := gcd_ne_zero_of_den (r := r) (by omega)
  refine ⟨?_, reduce_coprime r hg⟩
  rw [(reduce_num r hg).2]
  exact Int.ediv_pos_of_pos_of_dvd h (by omega) (Int.gcd_dvd_right ..)

theorem toRat_mk2 (n d : Int) : toRat (mk2 n d) = (n : ℚ) / d := by
  unfold mk2
  rw [toRat_reduce]
  unfold toRat
  split <;> simp [neg_div_neg_eq]

theorem canon_mk2 (n d : Int) (h : d ≠ 0) : Canon (mk2 n d) := by
  apply canon_reduce
  simp only; split <;> omega

theorem canon_ofInt (n : Int) : Canon (ofInt n) := ⟨by simp [ofInt], by simp [ofInt]⟩
theorem canon_zero : Canon zero := ⟨by decide, by decide⟩

@[simp] theorem toRat_zero : toRat zero = 0 := by simp [toRat, zero]
@[simp] theorem toRat_ofInt (n : Int) : toRat (ofInt n) = n := by simp [toRat, ofInt]

theorem Canon.den_ne {r : Rational} (h : Canon r) : (r.den : ℚ) ≠ 0 := by
  have := h.1
  exact_mod_cast (by omega : r.den ≠ 0)

theorem toRat_neg (r : Rational) : toRat (neg r) = - toRat r := by
  unfold neg; rw [toRat_mk2]; simp [toRat, neg_div]

theorem canon_neg {r : Rational} (h : Canon r) : Canon (neg r) :=
  canon_mk2 _ _ (by have := h.1; omega)

theorem toRat_add_of_den {a b : Rational} (ha : a.den ≠ 0) (hb : b.den ≠ 0) :
    toRat (add a b) = toRat a + toRat b := by
  unfold add; rw [toRat_reduce]; unfold toRat
  have ha' : (a.den : ℚ) ≠ 0 := by exact_mod_cast ha
  have hb' : (b.den : ℚ) ≠ 0 := by exact_mod_cast hb
  push_cast
  field_simp

theorem toRat_sub_of_den {a b : Rational} (ha : a.den ≠ 0) (hb : b.den ≠ 0) :
    toRat (sub a b) = toRat a - toRat b := by
  unfold sub; rw [toRat_reduce]; unfold toRat
  have ha' : (a.den : ℚ) ≠ 0 := by exact_mod_cast ha
  have hb' : (b.den : ℚ) ≠ 0 := by exact_mod_cast hb
  push_cast
  field_simp

theorem toRat_mul (a b : Rational) : toRat (mul a b) = toRat a * toRat b := by
  unfold mul; rw [toRat_reduce]; unfold toRat
  push_cast
  rw [div_mul_div_comm]

theorem toRat_div (a b : Rational) : toRat (div a b) = toRat a / toRat b := by
  unfold div; rw [toRat_reduce]; unfold toRat
  push_cast
  rw [div_div_div_eq]

theorem toRat_add {a b : Rational} (ha : Canon a) (hb : Canon b) :
    toRat (add a b) = toRat a + toRat b :=
  toRat_add_of_den (by have := ha.1; omega) (by have := hb.1; omega)

theorem toRat_sub {a b : Rational} (ha : Canon a) (hb : Canon b) :
    toRat (sub a b) = toRat a - toRat b :=
  toRat_sub_of_den (by have := ha.1; omega) (by have := hb.1; omega)

theorem canon_add {a b : Rational} (ha : Canon a) (hb : Canon b) : Canon (add a b) :=
  canon_reduce _ (Int.mul_pos hb.1 ha.1)
theorem canon_sub {a b : Rational} (ha : Canon a) (hb : Canon b) : Canon (sub a b) :=
  canon_reduce _ (Int.mul_pos hb.1 ha.1)
theorem canon_mul {a b : Rational} (ha : Canon a) (hb : Canon b) : Canon (mul a b) :=
  canon_reduce _ (Int.mul_pos ha.1 hb.1)
theorem canon_div {a b : Rational} (ha : Canon a) (hb : 0 < b.num) : Canon (div a b) :=
  canon_reduce _ (Int.mul_pos ha.1 hb)

theorem toRat_inj {a b : Rational} (ha : Canon a) (hb : Canon b) (h : toRat a = toRat b) :
    a = b := by
  have := Rat.div_int_inj ha.1 hb.1 (a := a.num) (c := b.num) ha.2 hb.2 h
  cases a; cases b; simp_all

theorem canon_num_zero {a : Rational} (ha : Canon a) (h : a.num = 0) : a = zero := by
  apply toRat_inj ha canon_zero
  simp [toRat, zero, h]

theorem toRat_eq_zero {a : Rational} (ha : Canon a) : toRat a = 0 ↔ a.num = 0 := by
  unfold toRat
  have := ha.den_ne
  rw [div_eq_zero_iff]
  simp [this]

theorem eq_iff {a b : Rational} (ha : Canon a) (hb : Canon b) : eq a b = true ↔ a = b := by
  constructor
  · unfold eq
    split
    · rename_i h
      simp at h
      intro _
      rw [canon_num_zero ha h.1, canon_num_zero hb h.2]
    · intro h; simp at h; cases a; cases b; simp_all
  · rintro rfl; unfold eq; split <;> simp

theorem eq_zero_iff {a : Rational} : eq a (ofInt 0) = true ↔ a.num = 0 ∨ a = ⟨0,1⟩ := by
  unfold eq ofInt; simp
  rcases a with ⟨n, d⟩
  by_cases h : n = 0 <;> simp [h]

theorem eq_toRat {a b : Rational} (ha : Canon a) (hb : Canon b) :
    eq a b = true ↔ toRat a = toRat b := by
  rw [eq_iff ha hb]
  exact ⟨fun h => h ▸ rfl, toRat_inj ha hb⟩

end Wicked.Rational
