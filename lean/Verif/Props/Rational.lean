import Verif.Spec.Rational
import Verif.Proofs.RationalStr
import Verif.Model.RationalMachine
/-! # Properties C01-C06: rational numbers -/
namespace Wicked.Rational

/-- C01: `rational(n,d)` represents `n/d` in lowest terms with positive denominator. -/
theorem C01_ctor_exact_canonical (n d : Int) (hd : d ≠ 0) :
    toRat (mk2 n d) = (n : ℚ) / (d : ℚ) ∧ 0 < (mk2 n d).den ∧
      Int.gcd (mk2 n d).num (mk2 n d).den = 1 :=
  ⟨toRat_mk2 n d, (canon_mk2 n d hd).1, (canon_mk2 n d hd).2⟩

/-- C01: `rational(n)` is `n/1`, `rational()` is `0/1`. -/
theorem C01_ctor_int (n : Int) :
    (ofInt n).num = n ∧ (ofInt n).den = 1 ∧ toRat (ofInt n) = n ∧ Canon (ofInt n) ∧
      zero.num = 0 ∧ zero.den = 1 :=
  ⟨rfl, rfl, toRat_ofInt n, canon_ofInt n, rfl, rfl⟩

example : mk2 6 (-4) = ⟨-3, 2⟩ ∧ mk2 0 (-4) = ⟨0, 1⟩ := by decide

/-- C02: `+ - *` and unary minus are exact and keep the canonical form. -/
theorem C02_arith_exact_canonical (a b : Rational) (ha : Canon a) (hb : Canon b) :
    (toRat (add a b) = toRat a + toRat b ∧ Canon (add a b)) ∧
    (toRat (sub a b) = toRat a - toRat b ∧ Canon (sub a b)) ∧
    (toRat (mul a b) = toRat a * toRat b ∧ Canon (mul a b)) ∧
    (toRat (neg a) = - toRat a ∧ Canon (neg a)) :=
  ⟨⟨toRat_add ha hb, canon_add ha hb⟩, ⟨toRat_sub ha hb, canon_sub ha hb⟩,
   ⟨toRat_mul a b, canon_mul ha hb⟩, ⟨toRat_neg a, canon_neg ha⟩⟩

example : Canon ⟨-3, 2⟩ ∧ Canon ⟨5, 6⟩ ∧ add ⟨-3, 2⟩ ⟨5, 6⟩ = ⟨-2, 3⟩ := by decide

/-- C03 (value): the quotient is exact for every canonical divisor. -/
theorem C03_div_exact (a b : Rational) : toRat (div a b) = toRat a / toRat b := toRat_div a b

/-- C03 (partial): the quotient is canonical when the divisor is positive.  The full statement
(every non-zero divisor) is false, see `C03_div_negative_not_canonical`. -/
theorem C03_div_canonical_partial (a b : Rational) (ha : Canon a) (hb : Canon b)
    (hpos : 0 < toRat b) : Canon (div a b) := by
  apply canon_div ha
  unfold toRat at hpos
  have h : (0 : ℚ) < b.den := by exact_mod_cast hb.1
  by_contra hn
  have hn' : (b.num : ℚ) ≤ 0 := by exact_mod_cast (by omega : b.num ≤ 0)
  exact absurd (div_nonpos_of_nonpos_of_nonneg hn' h.le) (not_le.mpr hpos)

/-- C03 (partial): `a/b == c` for a positive divisor iff the values agree. -/
theorem C03_div_eq_partial (a b c : Rational) (ha : Canon a) (hb : Canon b) (hc : Canon c)
    (hpos : 0 < toRat b) : eq (div a b) c = true ↔ toRat a / toRat b = toRat c := by
  rw [eq_toRat (C03_div_canonical_partial a b ha hb hpos) hc, toRat_div]

/-- C03 is false as stated: for every canonical non-zero `a` and every canonical negative `b`
the quotient has a negative denominator, so it is not canonical and differs under `==` from
the canonical object with the same value. -/
theorem C03_div_negative_not_canonical (a b : Rational) (ha : Canon a) (hb : Canon b)
    (hneg : toRat b < 0) :
    (div a b).den < 0 ∧ ¬ Canon (div a b) ∧
      (toRat a ≠ 0 → ∃ c, Canon c ∧ toRat c = toRat (div a b) ∧ eq (div a b) c = false) := by
  have hbn : b.num < 0 := by
    unfold toRat at hneg
    have h : (0 : ℚ) < b.den := by exact_mod_cast hb.1
    by_contra hn
    have hn' : (0 : ℚ) ≤ b.num := by exact_mod_cast (by omega : 0 ≤ b.num)
    exact absurd (div_nonneg hn' h.le) (not_le.mpr hneg)
  have hd : a.den * b.num < 0 := Int.mul_neg_of_pos_of_neg ha.1 hbn
  have hden : (div a b).den < 0 := by
    unfold div
    have hg := gcd_ne_zero_of_den (r := ⟨a.num * b.den, a.den * b.num⟩) (by simp only; omega)
    rw [(reduce_num _ hg).2]
    exact Int.ediv_neg_of_neg_of_pos hd (by omega)
  refine ⟨hden, fun h => ?_, fun hne => ?_⟩
  · have := h.1; omega
  · refine ⟨mk2 (div a b).num (div a b).den, canon_mk2 _ _ (by omega), toRat_mk2 _ _, ?_⟩
    have hcd := (canon_mk2 (div a b).num (div a b).den (by omega)).1
    have hnum : (div a b).num ≠ 0 := by
      intro h
      have h2 : toRat (div a b) = 0 := by unfold toRat; rw [h]; simp
      rw [toRat_div, div_eq_zero_iff] at h2
      rcases h2 with h2 | h2
      · exact hne h2
      · rw [h2] at hneg; exact lt_irrefl _ hneg
    unfold eq
    have e1 : ((div a b).num == 0) = false := by simpa using hnum
    have e2 : ((div a b).den == (mk2 (div a b).num (div a b).den).den) = false := by
      simp only [beq_eq_false_iff_ne]; omega
    simp [e1, e2]

example : Canon ⟨1, 1⟩ ∧ Canon ⟨-2, 1⟩ ∧ div ⟨1, 1⟩ ⟨-2, 1⟩ = ⟨1, -2⟩ ∧
    eq (div ⟨1, 1⟩ ⟨-2, 1⟩) (mk2 (-1) 2) = false := by decide

/-- C04: `==` on canonical rationals is numeric equality and `!=` is its negation. -/
theorem C04_eq_numeric (a b : Rational) (ha : Canon a) (hb : Canon b) :
    (eq a b = true ↔ toRat a = toRat b) ∧ (ne a b = true ↔ toRat a ≠ toRat b) := by
  refine ⟨eq_toRat ha hb, ?_⟩
  unfold ne
  rw [Bool.not_eq_true', ← Bool.not_eq_true, ne_eq, eq_toRat ha hb]

/-- C04: `==` is an equivalence relation on *all* objects with non-zero numerator and on all
canonical objects. -/
theorem C04_eq_equivalence :
    (∀ a, eq a a = true) ∧ (∀ a b, eq a b = eq b a) ∧
    (∀ a b c, eq a b = true → eq b c = true → eq a c = true) := by
  have key : ∀ a b : Rational, eq a b = true ↔ (a.num = 0 ∧ b.num = 0) ∨ a = b := by
    intro a b
    unfold eq
    rcases a with ⟨n, d⟩; rcases b with ⟨m, e⟩
    by_cases h : n = 0 ∧ m = 0
    · simp [h.1, h.2]
    · have : (n == 0 && m == 0) = false := by
        simp only [Bool.and_eq_false_iff, beq_eq_false_iff_ne]; omega
      simp [this, h]
  refine ⟨fun a => (key a a).mpr (Or.inr rfl), fun a b => ?_, fun a b c h1 h2 => ?_⟩
  · rw [Bool.eq_iff_iff, key, key]
    constructor <;> (rintro (⟨h1, h2⟩ | rfl); exact Or.inl ⟨h2, h1⟩; exact Or.inr rfl)
  · rw [key] at *
    rcases h1 with ⟨x, y⟩ | rfl
    · rcases h2 with ⟨_, z⟩ | rfl
      · exact Or.inl ⟨x, z⟩
      · exact Or.inl ⟨x, y⟩
    · exact h2

example : Canon ⟨2, 3⟩ ∧ eq ⟨2, 3⟩ (mk2 (-4) (-6)) = true := by decide

/-- C05: parsing what `str` printed gives the number back, with and without the sign flag. -/
theorem C05_str_roundtrip (r : Rational) (sign : Bool) (hc : Canon r)
    (hn : r.num.natAbs ≤ intMax) (hd : r.den ≤ intMax) : makeFromStr (str r sign) = .ok r :=
  makeFromStr_str r sign hc hn hd

example : Canon ⟨-3, 2⟩ ∧ str ⟨-3, 2⟩ true = ['-', '3', '/', '2'] := by decide

/-- C05: `make_rational(s)` succeeds exactly on the strings of the grammar whose numbers fit an
`int`, and then returns `rational(numerator, denominator)`; every other string throws. -/
theorem C05_parse_exact (s : Str) :
    (∀ r, makeFromStr s = .ok r ↔
      ∃ n d, Parses s n d ∧ n.natAbs ≤ intMax ∧ d.natAbs ≤ intMax ∧ r = mk2 n d) ∧
    (∀ f, makeFromStr s = .error f → f = .throw) := by
  cases hm : matchRat s with
  | none =>
    rw [makeFromStr_nomatch hm]
    refine ⟨fun r => ⟨by simp, ?_⟩, fun f h => by cases h; rfl⟩
    rintro ⟨n, d, hp, -⟩
    exfalso
    cases hp with
    | int ws1 ns ws2 sgn σ h1 h2 hs hn =>
      have : matchRat (ws1 ++ sgn ++ ns ++ ws2) = some ⟨decide (sgn = ['-']), ns, false, []⟩ :=
        matchRat_complete (ws1 := ws1) (sgn := sgn) (ws2 := ws2)
          ⟨h1, h2, by rcases hs with ⟨rfl, -⟩ | ⟨rfl, -⟩ | ⟨rfl, -⟩ <;> simp, hn, by simp, by simp, by simp⟩
      rw [hm] at this; cases this
    | frac ws1 ns ds ws2 sgn σ h1 h2 hs hn hn' hd hd' =>
      have : matchRat (ws1 ++ sgn ++ ns ++ ['/'] ++ ds ++ ws2) = some ⟨decide (sgn = ['-']), ns, true, ds⟩ :=
        matchRat_complete (ws1 := ws1) (sgn := sgn) (ws2 := ws2)
          ⟨h1, h2, by rcases hs with ⟨rfl, -⟩ | ⟨rfl, -⟩ | ⟨rfl, -⟩ <;> simp, hn, hd, by simp, by simp⟩
      rw [hm] at this; cases this
  | some m =>
    obtain ⟨ws1, sgn, ws2, D⟩ := matchRat_sound hm
    have hone : ¬ intMax < 1 := by decide
    constructor
    · intro r
      constructor
      · intro h
        rw [makeFromStr_of_match hm] at h
        split at h; · cases h
        split at h; · cases h
        split at h; · cases h
        rename_i g1 g2 g3
        cases h
        obtain ⟨hws1, hws2, hsgn, hns, hds, hsl, heq⟩ := D
        rcases m with ⟨mi, ns, sl, ds⟩
        simp only at *
        have hσ : sgn = [] ∧ (if mi then (-1 : Int) else 1) = 1 ∨ sgn = ['+'] ∧ (if mi then (-1 : Int) else 1) = 1 ∨
            sgn = ['-'] ∧ (if mi then (-1 : Int) else 1) = -1 := by
          rcases hsgn with ⟨a, b⟩ | ⟨a, b⟩ | ⟨a, b⟩ <;> simp [a, b]
        have habs : ∀ k : Nat, ((if mi then (-1 : Int) else 1) * (k : Int)).natAbs = k := by
          intro k; cases mi <;> simp
        have hval : numVal ns ≤ intMax := by
          unfold numVal; split
          · decide
          · rename_i h; simp [h] at g2; exact g2
        cases sl with
        | false =>
          have hds0 := hsl rfl
          subst hds0
          refine ⟨_, _, ?_, by rw [habs]; exact hval, by decide, rfl⟩
          have := Parses.int ws1 ns ws2 sgn _ hws1 hws2 hσ hns
          rw [heq]
          unfold numVal
          simp only [Bool.false_eq_true, if_false, List.nil_append, List.append_assoc] at this ⊢
          split <;> simp_all
        | true =>
          simp at g1
          refine ⟨_, _, ?_, by rw [habs]; exact hval, ?_, rfl⟩
          · have := Parses.frac ws1 ns ds ws2 sgn _ hws1 hws2 hσ hns g1.1 hds g1.2
            rw [heq]
            unfold numVal
            simp only [if_true, List.append_assoc, g1.1, if_false] at this ⊢
            exact this
          · simp at g3; simpa using g3
      · rintro ⟨n, d, hp, hn32, hd32, rfl⟩
        cases hp with
        | int ws1 ns ws2 sgn σ h1 h2 hs hn =>
          have hm' : matchRat (ws1 ++ sgn ++ ns ++ ws2) = some ⟨decide (sgn = ['-']), ns, false, []⟩ :=
            matchRat_complete (ws1 := ws1) (sgn := sgn) (ws2 := ws2)
              ⟨h1, h2, by rcases hs with ⟨rfl, -⟩ | ⟨rfl, -⟩ | ⟨rfl, -⟩ <;> simp, hn, by simp, by simp, by simp⟩
          rw [makeFromStr_of_match hm']
          have hσ : (if decide (sgn = ['-']) = true then (-1 : Int) else 1) = σ := by
            rcases hs with ⟨rfl, rfl⟩ | ⟨rfl, rfl⟩ | ⟨rfl, rfl⟩ <;> simp
          have hb : ¬ (ns ≠ [] ∧ intMax < digitsVal ns) := by
            rintro ⟨hne, hlt⟩
            simp only [hne, if_false, Int.natAbs_mul] at hn32
            have : σ.natAbs = 1 := by rcases hs with ⟨-, rfl⟩ | ⟨-, rfl⟩ | ⟨-, rfl⟩ <;> rfl
            rw [this] at hn32; simp at hn32; omega
          simp only [Bool.false_eq_true, false_and, if_false, hb, hσ]
          unfold numVal
          split <;> simp
        | frac ws1 ns ds ws2 sgn σ h1 h2 hs hn hn' hd hd' =>
          have hm' : matchRat (ws1 ++ sgn ++ ns ++ ['/'] ++ ds ++ ws2) = some ⟨decide (sgn = ['-']), ns, true, ds⟩ :=
            matchRat_complete (ws1 := ws1) (sgn := sgn) (ws2 := ws2)
              ⟨h1, h2, by rcases hs with ⟨rfl, -⟩ | ⟨rfl, -⟩ | ⟨rfl, -⟩ <;> simp, hn, hd, by simp, by simp⟩
          rw [makeFromStr_of_match hm']
          have hσ : (if decide (sgn = ['-']) = true then (-1 : Int) else 1) = σ := by
            rcases hs with ⟨rfl, rfl⟩ | ⟨rfl, rfl⟩ | ⟨rfl, rfl⟩ <;> simp
          have hb : ¬ (intMax < digitsVal ns) := by
            intro hlt
            rw [Int.natAbs_mul] at hn32
            have : σ.natAbs = 1 := by rcases hs with ⟨-, rfl⟩ | ⟨-, rfl⟩ | ⟨-, rfl⟩ <;> rfl
            rw [this] at hn32; simp at hn32; omega
          have hb2 : ¬ (intMax < digitsVal ds) := by simp at hd32; omega
          rw [if_neg (by simp [hn', hd']), if_neg (by simp [hb]), if_neg (by simp [hb2])]
          simp only [hσ, numVal, hn', if_false, if_true]
    · intro f h
      rw [makeFromStr_of_match hm] at h
      split at h; · cases h; rfl
      split at h; · cases h; rfl
      split at h; · cases h; rfl
      cases h

example : Parses ([' '] ++ ['-'] ++ ['3'] ++ ['/'] ++ ['2'] ++ []) (-1 * 3) ((2 : Nat) : Int) :=
  Parses.frac [' '] ['3'] ['2'] [] ['-'] (-1) (by decide) (by decide) (by decide) (by decide)
    (by decide) (by decide) (by decide)
example : makeFromStr ['1', '/'] = .error .throw ∧ makeFromStr ['x'] = .error .throw := by decide

/-! ## C06 -/

theorem chk64_ok {z r : Int} (h : chk64 z = .ok r) : r = z := by
  unfold chk64 at h; split at h <;> cases h; rfl
theorem chk64_err {z : Int} {f : Fault} (h : chk64 z = .error f) : f = .ub := by
  unfold chk64 at h; split at h <;> cases h; rfl
theorem chk64_of {z : Int} (h : -9223372036854775808 ≤ z ∧ z ≤ 9223372036854775807) :
    chk64 z = .ok z := by unfold chk64; rw [if_pos h]

/-- C06: in the 64-bit build every operation either returns the result of exact arithmetic or
is undefined behaviour (overflow); it never silently returns something else. -/
theorem C06_machine_exact_or_overflow (a b : Rational) :
    (addM a b = .ok (add a b) ∨ addM a b = .error .ub) ∧
    (subM a b = .ok (sub a b) ∨ subM a b = .error .ub) ∧
    (mulM a b = .ok (mul a b) ∨ mulM a b = .error .ub) ∧
    (divM a b = .ok (div a b) ∨ divM a b = .error .ub) := by
  have red : ∀ n d, reduceM n d = .ok (reduce ⟨n, d⟩) ∨ reduceM n d = .error .ub := by
    intro n d
    unfold reduceM
    cases h1 : chk64 (-n) with
    | error f => right; rw [chk64_err h1]; rfl
    | ok x =>
      cases h2 : chk64 (-d) with
      | error f => right; rw [chk64_err h2]; rfl
      | ok y => left; rfl
  have bnd : ∀ (z : Int) (k : Int → Res Rational) (P : Rational),
      (k z = .ok P ∨ k z = .error .ub) → ((chk64 z >>= k) = .ok P ∨ (chk64 z >>= k) = .error .ub) := by
    intro z k P h
    cases h1 : chk64 z with
    | error f => right; rw [chk64_err h1]; rfl
    | ok x => rw [chk64_ok h1]; exact h
  refine ⟨?_, ?_, ?_, ?_⟩
  · exact bnd _ _ _ (bnd _ _ _ (bnd _ _ _ (bnd _ _ _ (red _ _))))
  · exact bnd _ _ _ (bnd _ _ _ (bnd _ _ _ (bnd _ _ _ (red _ _))))
  · exact bnd _ _ _ (bnd _ _ _ (red _ _))
  · exact bnd _ _ _ (bnd _ _ _ (red _ _))

/-- C06: no overflow when numerators and denominators are bounded by `B` with `2 B² < 2^63`. -/
theorem C06_machine_no_overflow (a b : Rational) (B : Nat) (hB : 2 * B * B < 9223372036854775808)
    (h1 : a.num.natAbs ≤ B) (h2 : a.den.natAbs ≤ B) (h3 : b.num.natAbs ≤ B) (h4 : b.den.natAbs ≤ B) :
    addM a b = .ok (add a b) ∧ subM a b = .ok (sub a b) ∧ mulM a b = .ok (mul a b) ∧
      divM a b = .ok (div a b) := by
  have prod : ∀ x y : Int, x.natAbs ≤ B → y.natAbs ≤ B → (x * y).natAbs ≤ B * B := by
    intro x y hx hy
    rw [Int.natAbs_mul]; exact Nat.mul_le_mul hx hy
  have hBB : 2 * (B * B) < 9223372036854775808 := by rw [← Nat.mul_assoc]; exact hB
  generalize B * B = C at prod hBB
  have p1 := prod b.den a.num h4 h1
  have p2 := prod b.num a.den h3 h2
  have p3 := prod b.den a.den h4 h2
  have p4 := prod a.num b.num h1 h3
  have p5 := prod a.den b.den h2 h4
  have p6 := prod a.num b.den h1 h4
  have p7 := prod a.den b.num h2 h3
  have red : ∀ n d : Int, n.natAbs ≤ 2 * C → d.natAbs ≤ 2 * C → reduceM n d = .ok (reduce ⟨n, d⟩) := by
    intro n d hn hd
    unfold reduceM
    rw [chk64_of (by omega), chk64_of (by omega)]; rfl
  refine ⟨?_, ?_, ?_, ?_⟩
  · unfold addM add
    generalize b.den * a.num = x at *
    generalize b.num * a.den = y at *
    generalize b.den * a.den = z at *
    rw [chk64_of (z := x) (by omega), chk64_of (z := y) (by omega), chk64_of (z := z) (by omega)]
    simp only [bind, Except.bind]
    rw [chk64_of (by omega)]
    exact red _ _ (by omega) (by omega)
  · unfold subM sub
    generalize b.den * a.num = x at *
    generalize b.num * a.den = y at *
    generalize b.den * a.den = z at *
    rw [chk64_of (z := x) (by omega), chk64_of (z := y) (by omega), chk64_of (z := z) (by omega)]
    simp only [bind, Except.bind]
    rw [chk64_of (by omega)]
    exact red _ _ (by omega) (by omega)
  · unfold mulM mul
    rw [chk64_of (by omega), chk64_of (by omega)]
    exact red _ _ (by omega) (by omega)
  · unfold divM div
    rw [chk64_of (by omega), chk64_of (by omega)]
    exact red _ _ (by omega) (by omega)

/-- C06: overflow does happen: two 64-bit rationals whose product is undefined behaviour. -/
theorem C06_machine_overflow_witness :
    ∃ a b : Rational, Canon a ∧ Canon b ∧ chk64 a.num = .ok a.num ∧ chk64 b.num = .ok b.num ∧
      mulM a b = .error .ub ∧ addM a b = .error .ub :=
  ⟨⟨1, 4294967296⟩, ⟨1, 4294967297⟩, by decide, by decide, by decide, by decide, by decide, by decide⟩

example : 2 * 2000000000 * 2000000000 < 9223372036854775808 ∧
    mulM ⟨3, 2⟩ ⟨4, 9⟩ = .ok ⟨2, 3⟩ := by decide

end Wicked.Rational
