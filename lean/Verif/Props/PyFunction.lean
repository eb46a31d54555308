import Verif.Proofs.PyFunction
/-! # C82: the generated Python functions -/
namespace Wicked
open Rational Wick

section
variable {Ω R A : Type} [Inhabited Ω] [DecidableEq Ω] [CommRing R] [Ring A] [Algebra R A]

theorem dict_find {m : List (Str × List Equation)} (hn : (m.map Prod.fst).Nodup) {q : Str × List Equation} (hq : q ∈ m) :
    m.find? (fun p => decide (p.1 = q.1)) = some q := by
  induction m with
  | nil => cases hq
  | cons p m ih =>
    rw [List.map_cons, List.nodup_cons] at hn
    rw [List.find?_cons]
    rcases List.mem_cons.1 hq with rfl | hq
    · simp
    · have : p.1 ≠ q.1 := fun h => hn.1 (h ▸ List.mem_map_of_mem hq)
      simp [this, ih hn.2 hq]

theorem dict_find_none {m : List (Str × List Equation)} {key : Str} (h : key ∉ m.map Prod.fst) : m.find? (fun p => decide (p.1 = key)) = none := by
  rw [List.find?_eq_none]
  intro p hp hk
  exact h (List.mem_map.2 ⟨p, hp, of_decide_eq_true hk⟩)

/-- the function generated for a key of the many-body equations -/
theorem generateFunction_spec [Algebra ℚ R] (hist : List RegOp) {fmt : Rational → Str} {e : Expr} :
    let o := runReg OSI.empty hist
    (∀ s ∈ o.spaces, ∀ name ∈ s.indices, ∀ (c : Char) (n : Int), name ≠ c :: '_' :: '{' :: (intStr n ++ ['}'])) →
    (∀ s ∈ o.spaces, isAlpha s.label = true) → PrintsNine fmt →
    (∀ p ∈ e, p.1.Compilable o) → (∀ p ∈ e, Canon p.2) → (∀ p ∈ e, ∀ y ∈ p.1.tensors, y.label = ['H'] ∨ y.label = ['T']) →
    ∀ {m}, e.toManybody o ['R'] = .ok m → ∀ {q}, q ∈ m → ∀ {lines}, q.2.mapM (m := Except Fault) (fun q => q.compileEinsum o fmt) = .ok lines →
    ∀ {name : Str} {nocc nvir : Nat}, (∀ c ∈ name, isWord c = true) → (nocc + nvir = 0 → keyUpper q.1 ++ keyLower q.1 = []) → (∀ c ∈ keyUpper q.1 ++ keyLower q.1, isWord c = true) →
    ∃ text, generateFunction o fmt m name ('R' :: (keyUpper q.1 ++ keyLower q.1)) q.1 nocc nvir = .ok text ∧
      ∀ (arr : Str → Str → List Ω → R) (dom : Char → Finset Ω) (r : List Ω → R),
        Runs arr dom lines (fun _ _ => 0) (fun name x => if name = ['R'] ++ keyUpper q.1 ++ keyLower q.1 then r x else 0) →
        ReturnsArray arr dom text name (if nocc + nvir = 0 then none else some (List.replicate nocc "nocc".toList ++ List.replicate nvir "nvir".toList)) r := by
  intro o hgen hal hfmt hC hcoef hHT m hm q hqm lines hlines name nocc nvir hname h0 hword
  have hreg : ∀ p ∈ e, OpsRegistered o p.1 := by
    intro p hp a ha
    have := (hC p hp).registered a.index (List.mem_append_left _ (List.mem_map_of_mem ha))
    unfold Index.Registered at this
    unfold OSI.numSpaces
    omega
  obtain ⟨m', hm', hnd, hk, hq, hperm⟩ := C55_partition ['R'] hreg
  rw [hm] at hm'
  cases hm'
  have hlf : ∀ l ∈ lines, '\n' ∉ l ∧ l.head? ≠ some '#' ∧ ∃ L, readEinsum l = some L ∧ L.target = 'R' :: (keyUpper q.1 ++ keyLower q.1) ∧ ∀ a ∈ L.args, a.1 ∈ [['H'], ['T']] := by
    intro l hl
    rw [hq q hqm] at hlines
    obtain ⟨eq, heq, hc⟩ := forall₂_right ((mapM_ok_iff _ _ _).1 hlines) l hl
    obtain ⟨p, hp, rfl⟩ := List.mem_map.1 heq
    obtain ⟨hp, hpk⟩ := List.mem_filter.1 hp
    have hpk := of_decide_eq_true hpk
    obtain ⟨pre, L, h1, h2, h3, h4, h5, h6, ⟨a, b, h7⟩, h8⟩ := compiled_line hist (label := ['R']) (t := p.1) (c := p.2) hgen hal (by decide) hfmt (hC p hp) (hcoef p hp)
    rw [hc] at h1
    injection h1 with h1
    rw [← h1] at h2
    refine ⟨?_, ?_, L, h2, by rw [h3, hpk]; rfl, ?_⟩
    · rw [h1]
      intro h
      rcases List.mem_append.1 h with h | h
      · rcases List.mem_append.1 h with h | h
        · exact h6 h
        · obtain ⟨x, hx, h⟩ := List.mem_flatMap.1 h
          obtain ⟨y, hy, rfl⟩ := List.mem_map.1 hx
          simp only [List.mem_cons, List.mem_append, List.not_mem_nil, or_false] at h
          rcases h with h | ((h | h) | h) | h
          · exact absurd h (by decide)
          · exact absurd ((hC p hp).words y hy _ h) (by decide)
          · revert h; decide
          · exact absurd (h8 y hy _ h) (by decide)
          · revert h; decide
      · exact absurd h (by decide)
    · rw [h1, h7]; simp
    · intro a ha
      rw [h4] at ha
      obtain ⟨y, hy, rfl⟩ := List.mem_map.1 ha
      have := hHT p hp y hy
      simpa using this
  have hv : ∀ c ∈ 'R' :: (keyUpper q.1 ++ keyLower q.1), isWord c = true := by
    intro c hc
    rcases List.mem_cons.1 hc with rfl | hc
    · decide
    · exact hword c hc
  refine ⟨_, ?_, fun arr dom r hr => ⟨_, readFunction_text (nocc := nocc) (nvir := nvir) hname hv (fun l hl => ⟨(hlf l hl).1, (hlf l hl).2.1⟩) (fun h => by rw [h0 h]) (by simp), rfl, rfl, rfl, ?_, ?_⟩⟩
  · unfold generateFunction
    rw [dict_find hnd hqm]
    dsimp only
    rw [hlines]
    rfl
  · intro l hl
    exact (hlf l hl).2.2
  · refine ⟨_, hr, ?_⟩
    funext x
    dsimp only
    rw [if_pos (by simp)]


theorem key_block (a b : Char) (n k : Nat) (ha : a ≠ '|') : keyUpper (List.replicate n a ++ '|' :: List.replicate k b) = List.replicate n a ∧
    keyLower (List.replicate n a ++ '|' :: List.replicate k b) = List.replicate k b := by
  have hb : breakOn ['|'] (List.replicate n a ++ '|' :: List.replicate k b) = some (List.replicate n a, List.replicate k b) := by
    have := breakOn_app (c0 := '|') (sep := []) (a := List.replicate n a) (b := List.replicate k b) (by
      intro h; exact ha (List.mem_replicate.1 h).2.symm)
    rw [List.append_assoc] at this
    exact this
  unfold keyUpper keyLower
  rw [hb]
  simp

/-- **C82**, for arbitrary coefficients. In the situation of C78, with the label `R` and tensors labelled `H` and `T`: `generate_equation(mbeq, nocc, nvir)` returns a Python function, named after the
numbers of indices, that sets an array with one axis per index to zero, adds only to this array, uses only its parameters and returns the sum over the equations of the key
with `nocc` letters `o` and `nvir` letters `v` of the printed literal times the contraction; it raises an exception iff there is no such key. The arrays returned by the functions of all keys stand for the
expression with every coefficient replaced by the number printed for it, which is off by less than `10^-9`. -/
theorem C82_generate_equation_rounded [Algebra ℚ R] [Algebra ℚ A] [IsScalarTower ℚ R A] (hist : List RegOp) {fmt : Rational → Str} {e : Expr} :
    let o := runReg OSI.empty hist
    (∀ s ∈ o.spaces, ∀ name ∈ s.indices, ∀ (c : Char) (n : Int), name ≠ c :: '_' :: '{' :: (intStr n ++ ['}'])) →
    (∀ s ∈ o.spaces, isAlpha s.label = true) → PrintsNine fmt →
    (∀ p ∈ e, p.1.Compilable o) → (∀ p ∈ e, Canon p.2) → (∀ p ∈ e, ∀ y ∈ p.1.tensors, y.label = ['H'] ∨ y.label = ['T']) →
    ∀ (v : OrbSystem Ω R A) (arr : Str → Str → List Ω → R) (dom : Char → Finset Ω) (N : List (SQType × Ω) → A),
    (∀ p ∈ e, ∀ y ∈ p.1.tensors, ∀ l u, l.length = y.lower.length → u.length = y.upper.length → arr y.label (spaceText o y) (u ++ l) = v.T y.label l u) →
    (∀ (n : Nat) s, o.spaces[n]? = some s → dom s.label = v.dom n) →
    (∀ p ∈ e, |litVal fmt p.2 - toRat p.2| < 1 / 10 ^ 9) ∧
    ∃ m, e.toManybody o ['R'] = .ok m ∧ ∃ arrays : Str → List Ω → R,
      (∀ q ∈ m, ∀ x, arrays q.1 x = (q.2.map (fun eq => algebraMap ℚ R (litVal fmt eq.factor) * (eq.lhs.tensors.map (fun t => eq.element v t x)).sum)).sum) ∧
      (m.map (fun q => keyOperator dom N q.1 (arrays q.1))).sum = (e.map (fun p => litVal fmt p.2 • v.valueWith N p.1)).sum ∧
      ∀ nocc nvir : Nat,
        (List.replicate nocc 'o' ++ '|' :: List.replicate nvir 'v' ∈ m.map Prod.fst →
          ∃ text, generateEquation o fmt m nocc nvir = .ok text ∧
            ReturnsArray arr dom text ("evaluate_residual_".toList ++ natStr nocc ++ "_".toList ++ natStr nvir)
              (if nocc + nvir = 0 then none else some (List.replicate nocc "nocc".toList ++ List.replicate nvir "nvir".toList))
              (arrays (List.replicate nocc 'o' ++ '|' :: List.replicate nvir 'v'))) ∧
        (List.replicate nocc 'o' ++ '|' :: List.replicate nvir 'v' ∉ m.map Prod.fst → generateEquation o fmt m nocc nvir = .error .throw) := by
  intro o hgen hal hfmt hC hcoef hHT v arr dom N harr hdom
  obtain ⟨h0, m, hm, arrays, h1', h2⟩ := C78_program_rounded hist (label := ['R']) hgen hal (by decide) hfmt hC hcoef v arr dom N harr hdom
  have h1 := fun q hq => (h1' q hq).1
  refine ⟨h0, m, hm, arrays, fun q hq => (h1' q hq).2, h2, fun nocc nvir => ⟨fun hk => ?_, fun hk => ?_⟩⟩
  · obtain ⟨q, hq, hqk⟩ := List.mem_map.1 hk
    obtain ⟨lines, hl, hr⟩ := h1 q hq
    obtain ⟨ku, kl⟩ := key_block 'o' 'v' nocc nvir (by decide)
    have := generateFunction_spec (Ω := Ω) (R := R) hist hgen hal hfmt hC hcoef hHT hm hq hl (name := "evaluate_residual_".toList ++ natStr nocc ++ "_".toList ++ natStr nvir)
      (nocc := nocc) (nvir := nvir) (by
        intro c hc
        have hd : ∀ n, ∀ c ∈ natStr n, isWord c = true := fun n c hc => by have := natStr_digits n c hc; simp [isWord, isAlnum, this]
        have hw : ∀ c ∈ "evaluate_residual_".toList, isWord c = true := by decide
        have hu : ∀ c ∈ "_".toList, isWord c = true := by decide
        rcases List.mem_append.1 hc with hc | hc
        · rcases List.mem_append.1 hc with hc | hc
          · rcases List.mem_append.1 hc with hc | hc
            · exact hw c hc
            · exact hd _ c hc
          · exact hu c hc
        · exact hd _ c hc) (by
        intro h0
        have h0' : nocc = 0 ∧ nvir = 0 := by omega
        rw [hqk, ku, kl, h0'.1, h0'.2]; rfl) (by
        rw [hqk, ku, kl]
        intro c hc
        rcases List.mem_append.1 hc with hc | hc
        · rw [(List.mem_replicate.1 hc).2]; decide
        · rw [(List.mem_replicate.1 hc).2]; decide)
    obtain ⟨text, ht, hra⟩ := this
    refine ⟨text, ?_, ?_⟩
    · unfold generateEquation
      rw [hqk, ku, kl] at ht
      exact ht
    · rw [← hqk]
      exact hra arr dom (arrays q.1) hr
  · unfold generateEquation generateFunction
    rw [dict_find_none hk]
    rfl

/-- **C82.** In the situation of C78, with the label `R` and tensors labelled `H` and `T`: `generate_equation(mbeq, nocc, nvir)` returns a Python function, named after the
numbers of indices, that sets an array with one axis per index to zero, adds only to this array, uses only its parameters and returns the array of C78 for the key
with `nocc` letters `o` and `nvir` letters `v`; it raises an exception iff there is no such key. So the arrays returned by the functions of all keys stand for the
expression. Missing with respect to the full claim: coefficients that are not a multiple of `10^-9` (`C61_rounded_factor`). -/
theorem C82_generate_equation_partial [Algebra ℚ R] [Algebra ℚ A] [IsScalarTower ℚ R A] (hist : List RegOp) {fmt : Rational → Str} {e : Expr} :
    let o := runReg OSI.empty hist
    (∀ s ∈ o.spaces, ∀ name ∈ s.indices, ∀ (c : Char) (n : Int), name ≠ c :: '_' :: '{' :: (intStr n ++ ['}'])) →
    (∀ s ∈ o.spaces, isAlpha s.label = true) → PrintsNine fmt →
    (∀ p ∈ e, p.1.Compilable o) → (∀ p ∈ e, Canon p.2 ∧ p.2.den ∣ 10 ^ 9) → (∀ p ∈ e, ∀ y ∈ p.1.tensors, y.label = ['H'] ∨ y.label = ['T']) →
    ∀ (v : OrbSystem Ω R A) (arr : Str → Str → List Ω → R) (dom : Char → Finset Ω) (N : List (SQType × Ω) → A),
    (∀ p ∈ e, ∀ y ∈ p.1.tensors, ∀ l u, l.length = y.lower.length → u.length = y.upper.length → arr y.label (spaceText o y) (u ++ l) = v.T y.label l u) →
    (∀ (n : Nat) s, o.spaces[n]? = some s → dom s.label = v.dom n) →
    ∃ m, e.toManybody o ['R'] = .ok m ∧ ∃ arrays : Str → List Ω → R,
      (m.map (fun q => keyOperator dom N q.1 (arrays q.1))).sum = Lin.eval (v.valueWith N) e ∧
      ∀ nocc nvir : Nat,
        (List.replicate nocc 'o' ++ '|' :: List.replicate nvir 'v' ∈ m.map Prod.fst →
          ∃ text, generateEquation o fmt m nocc nvir = .ok text ∧
            ReturnsArray arr dom text ("evaluate_residual_".toList ++ natStr nocc ++ "_".toList ++ natStr nvir)
              (if nocc + nvir = 0 then none else some (List.replicate nocc "nocc".toList ++ List.replicate nvir "nvir".toList))
              (arrays (List.replicate nocc 'o' ++ '|' :: List.replicate nvir 'v'))) ∧
        (List.replicate nocc 'o' ++ '|' :: List.replicate nvir 'v' ∉ m.map Prod.fst → generateEquation o fmt m nocc nvir = .error .throw) := by
  intro o hgen hal hfmt hC hcoef hHT v arr dom N harr hdom
  obtain ⟨_, m, hm, arrays, _, h2, h3⟩ := C82_generate_equation_rounded hist hgen hal hfmt hC (fun p hp => (hcoef p hp).1) hHT v arr dom N harr hdom
  refine ⟨m, hm, arrays, ?_, h3⟩
  rw [h2]
  unfold Lin.eval
  congr 1
  apply List.map_congr_left
  intro p hp
  rw [litVal_exact hfmt (hcoef p hp).1 (hcoef p hp).2]

theorem pyPartition_eq {sep : Str} (h : sep ≠ []) (s : Str) : pyPartition sep s = breakOn sep s := by
  induction s with
  | nil => rw [pyPartition, breakOn, if_neg h]
  | cons c s ih => rw [pyPartition, breakOn, ih]

theorem pySplit_bar {a b : Str} (ha : '|' ∉ a) : ∃ l, pySplit ['|'] (a ++ '|' :: b) = a :: l ∧ ('|' ∉ b → l = [b]) := by
  unfold pySplit pySplitAux
  have := breakOn_app (c0 := '|') (sep := []) (a := a) (b := b) ha
  rw [List.append_assoc] at this
  rw [pyPartition_eq (by simp)]
  simp only [List.singleton_append] at this
  rw [this]
  refine ⟨_, rfl, fun hb => ?_⟩
  cases hn : (a ++ '|' :: b).length with
  | zero => rfl
  | succ n =>
    rw [pySplitAux, pyPartition_eq (by simp), breakOn_none hb]

/-- **C82**, for arbitrary coefficients: the same for `generate_equation(mbeq, nocc, nvir, space)` of the spin-integrated examples and every key `space`. -/
theorem C82_generate_equation_space_rounded [Algebra ℚ R] [Algebra ℚ A] [IsScalarTower ℚ R A] (hist : List RegOp) {fmt : Rational → Str} {e : Expr} :
    let o := runReg OSI.empty hist
    (∀ s ∈ o.spaces, ∀ name ∈ s.indices, ∀ (c : Char) (n : Int), name ≠ c :: '_' :: '{' :: (intStr n ++ ['}'])) →
    (∀ s ∈ o.spaces, isAlpha s.label = true) → PrintsNine fmt →
    (∀ p ∈ e, p.1.Compilable o) → (∀ p ∈ e, Canon p.2) → (∀ p ∈ e, ∀ y ∈ p.1.tensors, y.label = ['H'] ∨ y.label = ['T']) →
    ∀ (v : OrbSystem Ω R A) (arr : Str → Str → List Ω → R) (dom : Char → Finset Ω) (N : List (SQType × Ω) → A),
    (∀ p ∈ e, ∀ y ∈ p.1.tensors, ∀ l u, l.length = y.lower.length → u.length = y.upper.length → arr y.label (spaceText o y) (u ++ l) = v.T y.label l u) →
    (∀ (n : Nat) s, o.spaces[n]? = some s → dom s.label = v.dom n) →
    (∀ p ∈ e, |litVal fmt p.2 - toRat p.2| < 1 / 10 ^ 9) ∧
    ∃ m, e.toManybody o ['R'] = .ok m ∧ ∃ arrays : Str → List Ω → R,
      (∀ q ∈ m, ∀ x, arrays q.1 x = (q.2.map (fun eq => algebraMap ℚ R (litVal fmt eq.factor) * (eq.lhs.tensors.map (fun t => eq.element v t x)).sum)).sum) ∧
      (m.map (fun q => keyOperator dom N q.1 (arrays q.1))).sum = (e.map (fun p => litVal fmt p.2 • v.valueWith N p.1)).sum ∧
      ∀ q ∈ m, ∀ nocc nvir : Nat, nocc + nvir = (keyUpper q.1 ++ keyLower q.1).length →
        ∃ text, generateEquationSpace o fmt m nocc nvir q.1 = .ok text ∧
            ReturnsArray arr dom text ("evaluate_residual_".toList ++ (keyUpper q.1 ++ keyLower q.1))
              (if nocc + nvir = 0 then none else some (List.replicate nocc "nocc".toList ++ List.replicate nvir "nvir".toList)) (arrays q.1) := by
  intro o hgen hal hfmt hC hcoef hHT v arr dom N harr hdom
  obtain ⟨h0, m, hm, arrays, h1', h2⟩ := C78_program_rounded hist (label := ['R']) hgen hal (by decide) hfmt hC hcoef v arr dom N harr hdom
  have h1 := fun q hq => (h1' q hq).1
  refine ⟨h0, m, hm, arrays, fun q hq => (h1' q hq).2, h2, fun q hq nocc nvir hn => ?_⟩
  obtain ⟨lines, hl, hr⟩ := h1 q hq
  have hreg : ∀ p ∈ e, OpsRegistered o p.1 := by
    intro p hp a ha
    have := (hC p hp).registered a.index (List.mem_append_left _ (List.mem_map_of_mem ha))
    unfold Index.Registered at this
    unfold OSI.numSpaces
    omega
  obtain ⟨m', hm', _, hk, _, _⟩ := C55_partition ['R'] hreg
  rw [hm] at hm'
  cases hm'
  obtain ⟨p, hp, hpk⟩ := (hk q.1).1 (List.mem_map_of_mem hq)
  have hbar : ∀ n, '|' ∉ repeatLabels o n := fun n hm => by
    obtain ⟨x, hx, hc⟩ := mem_repeatLabels hm
    exact absurd (hal x hx) (by rw [hc]; decide)
  have hlet : ∀ n, ∀ c ∈ repeatLabels o n, isWord c = true := fun n c hm => by
    obtain ⟨x, hx, hc⟩ := mem_repeatLabels hm
    rw [← hc]; exact alpha_word (hal x hx)
  have hb : breakOn ['|'] q.1 = some (repeatLabels o (opCount p.1 false), (repeatLabels o (opCount p.1 true)).reverse) := by
    have := breakOn_app (c0 := '|') (sep := []) (a := repeatLabels o (opCount p.1 false)) (b := (repeatLabels o (opCount p.1 true)).reverse) (hbar _)
    rw [List.append_assoc] at this
    rw [← hpk]
    exact this
  have ku : keyUpper q.1 = repeatLabels o (opCount p.1 false) := by unfold keyUpper; rw [hb]; rfl
  have kl : keyLower q.1 = repeatLabels o (opCount p.1 true) := by unfold keyLower; rw [hb]; simp
  have hword : ∀ c ∈ keyUpper q.1 ++ keyLower q.1, isWord c = true := by
    intro c hc
    rw [ku, kl] at hc
    rcases List.mem_append.1 hc with hc | hc <;> exact hlet _ c hc
  obtain ⟨text, ht, hra⟩ := generateFunction_spec (Ω := Ω) (R := R) hist hgen hal hfmt hC hcoef hHT hm hq hl (name := "evaluate_residual_".toList ++ (keyUpper q.1 ++ keyLower q.1))
      (nocc := nocc) (nvir := nvir) (by
        intro c hc
        have hw : ∀ c ∈ "evaluate_residual_".toList, isWord c = true := by decide
        rcases List.mem_append.1 hc with hc | hc
        · exact hw c hc
        · exact hword c hc) (by
        intro h0
        rw [h0] at hn
        exact List.length_eq_zero_iff.1 hn.symm) hword
  refine ⟨text, ?_, hra arr dom (arrays q.1) hr⟩
  unfold generateEquationSpace
  obtain ⟨l, hs, hl'⟩ := pySplit_bar (a := repeatLabels o (opCount p.1 false)) (b := (repeatLabels o (opCount p.1 true)).reverse) (hbar _)
  have e2 : q.1 = repeatLabels o (opCount p.1 false) ++ '|' :: (repeatLabels o (opCount p.1 true)).reverse := hpk.symm
  rw [← e2, hl' (fun h => hbar _ (List.mem_reverse.1 h))] at hs
  rw [hs]
  dsimp only
  rw [List.reverse_reverse, ← ku, ← kl]
  exact ht

/-- **C82.** The same for `generate_equation(mbeq, nocc, nvir, space)` of the spin-integrated examples and every key `space`: the function is named after the spaces. -/
theorem C82_generate_equation_space_partial [Algebra ℚ R] [Algebra ℚ A] [IsScalarTower ℚ R A] (hist : List RegOp) {fmt : Rational → Str} {e : Expr} :
    let o := runReg OSI.empty hist
    (∀ s ∈ o.spaces, ∀ name ∈ s.indices, ∀ (c : Char) (n : Int), name ≠ c :: '_' :: '{' :: (intStr n ++ ['}'])) →
    (∀ s ∈ o.spaces, isAlpha s.label = true) → PrintsNine fmt →
    (∀ p ∈ e, p.1.Compilable o) → (∀ p ∈ e, Canon p.2 ∧ p.2.den ∣ 10 ^ 9) → (∀ p ∈ e, ∀ y ∈ p.1.tensors, y.label = ['H'] ∨ y.label = ['T']) →
    ∀ (v : OrbSystem Ω R A) (arr : Str → Str → List Ω → R) (dom : Char → Finset Ω) (N : List (SQType × Ω) → A),
    (∀ p ∈ e, ∀ y ∈ p.1.tensors, ∀ l u, l.length = y.lower.length → u.length = y.upper.length → arr y.label (spaceText o y) (u ++ l) = v.T y.label l u) →
    (∀ (n : Nat) s, o.spaces[n]? = some s → dom s.label = v.dom n) →
    ∃ m, e.toManybody o ['R'] = .ok m ∧ ∃ arrays : Str → List Ω → R,
      (m.map (fun q => keyOperator dom N q.1 (arrays q.1))).sum = Lin.eval (v.valueWith N) e ∧
      ∀ q ∈ m, ∀ nocc nvir : Nat, nocc + nvir = (keyUpper q.1 ++ keyLower q.1).length →
        ∃ text, generateEquationSpace o fmt m nocc nvir q.1 = .ok text ∧
            ReturnsArray arr dom text ("evaluate_residual_".toList ++ (keyUpper q.1 ++ keyLower q.1))
              (if nocc + nvir = 0 then none else some (List.replicate nocc "nocc".toList ++ List.replicate nvir "nvir".toList)) (arrays q.1) := by
  intro o hgen hal hfmt hC hcoef hHT v arr dom N harr hdom
  obtain ⟨_, m, hm, arrays, _, h2, h3⟩ := C82_generate_equation_space_rounded hist hgen hal hfmt hC (fun p hp => (hcoef p hp).1) hHT v arr dom N harr hdom
  refine ⟨m, hm, arrays, ?_, h3⟩
  rw [h2]
  unfold Lin.eval
  congr 1
  apply List.map_congr_left
  intro p hp
  rw [litVal_exact hfmt (hcoef p hp).1 (hcoef p hp).2]

end

/-! ## get_index_blocks -/

theorem isPrefixOf_head {c d : Char} {a b : Str} (h : c ≠ d) : (c :: a).isPrefixOf (d :: b) = false := by
  simp [List.isPrefixOf, h]

theorem pyPartition_skip_char {c d : Char} {sep s : Str} (h : c ≠ d) : pyPartition (c :: sep) (d :: s) = (pyPartition (c :: sep) s).map (fun p => (d :: p.1, p.2)) := by
  rw [pyPartition, if_neg (by simp [isPrefixOf_head h])]

/-- a text that does not contain the second character of the separator and is not followed by it contains no beginning of the separator -/
theorem pyPartition_skip {c d : Char} {sep a b : Str} (ha : d ∉ a) (hb : b.head? ≠ some d) :
    pyPartition (c :: d :: sep) (a ++ b) = (pyPartition (c :: d :: sep) b).map (fun p => (a ++ p.1, p.2)) := by
  induction a with
  | nil => simp
  | cons x a ih =>
    simp only [List.mem_cons, not_or] at ha
    rw [List.cons_append, pyPartition, if_neg, ih ha.2]
    · rw [Option.map_map]; rfl
    · intro h
      rw [List.isPrefixOf_cons₂, Bool.and_eq_true] at h
      have h2 := h.2
      cases a with
      | nil =>
        rw [List.nil_append] at h2
        cases b with
        | nil => simp at h2
        | cons y b =>
          rw [List.isPrefixOf_cons₂, Bool.and_eq_true] at h2
          exact hb (by simpa using (eq_of_beq h2.1).symm)
      | cons y a =>
        rw [List.cons_append, List.isPrefixOf_cons₂, Bool.and_eq_true] at h2
        exact ha.2 (by rw [eq_of_beq h2.1]; simp)

theorem pyPartition_mem_none {c : Char} {sep s : Str} (hc : c ∈ sep) (hs : c ∉ s) : pyPartition sep s = none := by
  induction s with
  | nil => rfl
  | cons x s ih =>
    simp only [List.mem_cons, not_or] at hs
    rw [pyPartition, if_neg, ih hs.2]
    · rfl
    · intro h
      have := (List.isPrefixOf_iff_prefix.1 h).subset hc
      rcases List.mem_cons.1 this with h | h
      · exact hs.1 h
      · exact hs.2 h

theorem pyPartition_isSome (sep a b : Str) (hsep : sep ≠ []) : (pyPartition sep (a ++ sep ++ b)).isSome = true := by
  induction a with
  | nil =>
    cases sep with
    | nil => exact absurd rfl hsep
    | cons c sep => rw [List.nil_append, List.cons_append, pyPartition, if_pos (by simp)]; rfl
  | cons x a ih =>
    rw [List.cons_append, List.cons_append, pyPartition]
    split
    · rfl
    · simpa using ih

/-- the operands that stand before the first one labelled `H` -/
theorem pyPartition_args {sep : Str} (args : List (Str × Str)) (hT : ∀ p ∈ args, p.1 = ['T'] ∧ ∀ c ∈ p.2, isWord c = true) (b : Str) :
    pyPartition ('H' :: '[' :: sep) (argsText args ++ b) = (pyPartition ('H' :: '[' :: sep) b).map (fun p => (argsText args ++ p.1, p.2)) := by
  induction args with
  | nil => simp [argsText]
  | cons p args ih =>
    have e : argsText (p :: args) ++ b = ',' :: (p.1 ++ '[' :: '"' :: (p.2 ++ '"' :: ']' :: (argsText args ++ b))) := by
      simp [argsText]
    obtain ⟨h1, h2⟩ := hT p (by simp)
    rw [e, h1, List.singleton_append, pyPartition_skip_char (by decide), pyPartition_skip_char (by decide), pyPartition_skip_char (by decide), pyPartition_skip_char (by decide),
      pyPartition_skip (word_notMem h2 (by decide)) (by simp), pyPartition_skip_char (by decide), pyPartition_skip_char (by decide), ih (fun q hq => hT q (by simp [hq]))]
    simp only [Option.map_map]
    congr 1
    funext x
    simp [argsText, h1]

theorem tail_none {sep : Str} : pyPartition ('H' :: '[' :: sep) einsumTail = none := pyPartition_mem_none (c := '[') (by simp) (by decide)

/-- the block found in a line: that of the first operand labelled `H` -/
theorem lineBlock_call {pre : Str} (h1 : '[' ∉ pre) (h2 : ∃ a b, pre = a ++ "np.einsum".toList ++ b) (args : List (Str × Str))
    (hT : ∀ p ∈ args, (p.1 = ['H'] ∨ p.1 = ['T']) ∧ ∀ c ∈ p.2, isWord c = true) :
    lineBlock (pre ++ argsText args ++ einsumTail) = .ok ((args.find? (fun p => decide (p.1 = ['H']))).map Prod.snd) := by
  have hne : (pyPartition "np.einsum".toList (pre ++ argsText args ++ einsumTail)).isSome = true := by
    obtain ⟨a, b, rfl⟩ := h2
    generalize hsep : "np.einsum".toList = sep
    have hs : sep ≠ [] := by rw [← hsep]; decide
    rw [List.append_assoc, List.append_assoc]
    exact pyPartition_isSome _ _ _ hs
  unfold lineBlock
  rw [hne, Bool.true_and]
  have hcomma : ∀ s : Str, (argsText args ++ einsumTail ++ s).head? ≠ some '[' := by
    intro s
    obtain ⟨t, ht⟩ : ∃ t, einsumTail = ',' :: t := ⟨_, rfl⟩
    rw [ht]
    cases args with
    | nil => simp [argsText]
    | cons p args => simp [argsText]
  have hcomma' := hcomma []
  rw [List.append_nil] at hcomma'
  cases hf : args.find? (fun p => decide (p.1 = ['H'])) with
  | none =>
    rw [List.find?_eq_none] at hf
    have hT' : ∀ p ∈ args, p.1 = ['T'] ∧ ∀ c ∈ p.2, isWord c = true := fun p hp => ⟨(hT p hp).1.resolve_left (by simpa using hf p hp), (hT p hp).2⟩
    rw [show "H[".toList = 'H' :: '[' :: [] from rfl, List.append_assoc, pyPartition_skip h1 hcomma', pyPartition_args _ hT', tail_none]
    rfl
  | some p =>
    obtain ⟨hp, as, bs, hab, has⟩ := List.find?_eq_some_iff_append.1 hf
    have hp := of_decide_eq_true hp
    have hT' : ∀ p ∈ as, p.1 = ['T'] ∧ ∀ c ∈ p.2, isWord c = true := fun p hp => by
      have := hT p (by rw [hab]; simp [hp])
      exact ⟨this.1.resolve_left (by simpa using has p hp), this.2⟩
    have hw : ∀ c ∈ p.2, isWord c = true := (hT p (by rw [hab]; simp)).2
    have e : pre ++ argsText args ++ einsumTail = pre ++ (argsText as ++ (',' :: 'H' :: '[' :: '"' :: (p.2 ++ ('"' :: [']']) ++ (argsText bs ++ einsumTail)))) := by
      rw [hab]; simp [argsText, hp]
    have hcomma2 : (argsText as ++ (',' :: 'H' :: '[' :: '"' :: (p.2 ++ ('"' :: [']']) ++ (argsText bs ++ einsumTail)))).head? ≠ some '[' := by
      cases as with
      | nil => simp [argsText]
      | cons p args => simp [argsText]
    have hpart : ∀ sep, ('H' :: '[' :: sep).isPrefixOf ('H' :: '[' :: '"' :: (p.2 ++ ('"' :: [']']) ++ (argsText bs ++ einsumTail))) = true →
        ∃ x, pyPartition ('H' :: '[' :: sep) (pre ++ argsText args ++ einsumTail) = some (x, ('H' :: '[' :: '"' :: (p.2 ++ ('"' :: [']']) ++ (argsText bs ++ einsumTail))).drop (sep.length + 2)) := by
      intro sep hsep
      rw [e, pyPartition_skip h1 hcomma2, pyPartition_args _ hT', pyPartition_skip_char (by decide), pyPartition, if_pos hsep]
      exact ⟨_, rfl⟩
    obtain ⟨x0, hx0⟩ := hpart [] (by simp [List.isPrefixOf])
    obtain ⟨x1, hx1⟩ := hpart ['"'] (by simp [List.isPrefixOf])
    rw [show "H[".toList = 'H' :: '[' :: [] from rfl, hx0, if_pos (by rfl)]
    unfold pySplit
    rw [show "H[\"".toList = 'H' :: '[' :: ['"'] from rfl, pySplitAux, hx1]
    dsimp only
    have hd : List.drop (List.length ['"'] + 2) ('H' :: '[' :: '"' :: (p.2 ++ ('"' :: [']']) ++ (argsText bs ++ einsumTail))) = p.2 ++ ('"' :: [']']) ++ (argsText bs ++ einsumTail) := rfl
    rw [hd]
    have key : ∀ n, ∃ y l, pySplitAux n ('H' :: '[' :: ['"']) (p.2 ++ ('"' :: [']']) ++ (argsText bs ++ einsumTail)) = (p.2 ++ ('"' :: [']']) ++ y) :: l := by
      intro n
      cases n with
      | zero => exact ⟨_, _, rfl⟩
      | succ n =>
        rw [pySplitAux, List.append_assoc, pyPartition_skip (word_notMem hw (by decide)) (by simp)]
        rw [List.cons_append, List.cons_append, List.nil_append, pyPartition_skip_char (by decide), pyPartition_skip_char (by decide)]
        cases pyPartition ('H' :: '[' :: ['"']) (argsText bs ++ einsumTail) with
        | none => exact ⟨argsText bs ++ einsumTail, [], by simp⟩
        | some z => exact ⟨z.1, _, by simp; rfl⟩
    obtain ⟨y, l, hy⟩ := key (pre ++ argsText args ++ einsumTail).length
    rw [hy]
    dsimp only
    rw [pySplitAux, show "\"]".toList = '"' :: [']'] from rfl, pyPartition_eq (by simp), breakOn_app (word_notMem hw (by decide))]
    rfl

theorem lineBlock_none {line : Str} (h : '[' ∉ line) : lineBlock line = .ok none := by
  unfold lineBlock
  rw [pyPartition_mem_none (sep := "H[".toList) (c := '[') (by decide) h]
  simp
  rfl

theorem pySplitAux_join : ∀ (l : List Str) (n : Nat), l ≠ [] → (∀ s ∈ l, '\n' ∉ s) → l.length ≤ n → pySplitAux n ['\n'] (join ['\n'] l) = l
  | [], _, h, _, _ => absurd rfl h
  | [a], n, _, hn, hl => by
    obtain ⟨k, rfl⟩ : ∃ k, n = k + 1 := ⟨n - 1, by simp at hl; omega⟩
    rw [join, pySplitAux, pyPartition_mem_none (c := '\n') (by simp) (hn a (by simp))]
  | a :: b :: l, n, _, hn, hl => by
    obtain ⟨k, rfl⟩ : ∃ k, n = k + 1 := ⟨n - 1, by simp at hl; omega⟩
    rw [join, pySplitAux, pyPartition_eq (by simp), breakOn_app (hn a (by simp))]
    dsimp only
    rw [pySplitAux_join (b :: l) k (by simp) (fun s hs => hn s (by simp [hs])) (by simp at hl ⊢; omega)]

theorem join_length_py (l : List Str) : l.length ≤ (join ['\n'] l).length + 1 := by
  induction l with
  | nil => simp
  | cons a l ih =>
    cases l with
    | nil => simp
    | cons b l => rw [join]; simp at ih ⊢; omega

theorem pySplit_join {l : List Str} (h : l ≠ []) (hn : ∀ s ∈ l, '\n' ∉ s) : pySplit ['\n'] (join ['\n'] l) = l :=
  pySplitAux_join l _ h hn (join_length_py l)

theorem foldlM_blocks (l : List Str) (f : Str → Option Str) (hf : ∀ s ∈ l, lineBlock s = .ok (f s)) : ∀ acc : List Str, acc.Nodup → ∃ bs,
    l.foldlM (m := Except Fault) (fun blocks line => do
      match ← lineBlock line with
      | none => return blocks
      | some b => return if b ∈ blocks then blocks else blocks ++ [b]) acc = .ok bs ∧ bs.Nodup ∧ ∀ k, k ∈ bs ↔ k ∈ acc ∨ ∃ s ∈ l, f s = some k := by
  induction l with
  | nil => intro acc h; exact ⟨acc, rfl, h, fun k => by simp⟩
  | cons s l ih =>
    intro acc hacc
    rw [List.foldlM_cons, hf s (by simp)]
    cases hs : f s with
    | none =>
      obtain ⟨bs, h1, h2, h3⟩ := ih (fun s hs => hf s (by simp [hs])) acc hacc
      refine ⟨bs, h1, h2, fun k => ?_⟩
      rw [h3]; simp [hs]
    | some b =>
      obtain ⟨bs, h1, h2, h3⟩ := ih (fun s hs => hf s (by simp [hs])) (if b ∈ acc then acc else acc ++ [b]) (by
        split
        · exact hacc
        · next hb => exact List.nodup_append.2 ⟨hacc, by simp, fun x hx y hy => by simp at hy; rintro rfl; exact hb (hy ▸ hx)⟩)
      refine ⟨bs, h1, h2, fun k => ?_⟩
      rw [h3]
      have : k ∈ (if b ∈ acc then acc else acc ++ [b]) ↔ k ∈ acc ∨ k = b := by
        split
        · next hb => constructor
                     · exact .inl
                     · rintro (h | rfl); exacts [h, hb]
        · simp
      rw [this]
      simp only [List.mem_cons, exists_eq_or_imp, hs, Option.some.injEq, or_assoc]
      constructor
      · rintro (h | h | h)
        exacts [.inl h, .inr (.inl h.symm), .inr (.inr h)]
      · rintro (h | h | h)
        exacts [.inl h, .inr (.inl h.symm), .inr (.inr h)]

/-- **C82.** For every key of the many-body equations (tensors labelled `H` and `T` only), `get_index_blocks` applied to the generated function returns, for every equation with a tensor `H`,
the spaces of the first one; so it returns exactly the blocks of `H` that the function uses if no equation has two tensors `H`. Missing with respect to the full claim
(all blocks that are used): further tensors `H` in an equation (`C82_missed_block`). -/
theorem C82_index_blocks_partial (hist : List RegOp) {fmt : Rational → Str} {e : Expr} :
    let o := runReg OSI.empty hist
    (∀ s ∈ o.spaces, ∀ name ∈ s.indices, ∀ (c : Char) (n : Int), name ≠ c :: '_' :: '{' :: (intStr n ++ ['}'])) →
    (∀ s ∈ o.spaces, isAlpha s.label = true) → PrintsNine fmt →
    (∀ p ∈ e, p.1.Compilable o) → (∀ p ∈ e, Canon p.2) → (∀ p ∈ e, ∀ y ∈ p.1.tensors, y.label = ['H'] ∨ y.label = ['T']) →
    ∀ {m}, e.toManybody o ['R'] = .ok m → ∀ {name key resSym : Str} {nocc nvir : Nat}, (∀ c ∈ name, isWord c = true) → (∀ c ∈ resSym, isWord c = true) →
    ∀ {text}, generateFunction o fmt m name resSym key nocc nvir = .ok text →
    ∃ bs, getIndexBlocks text = .ok bs ∧ bs.Nodup ∧
      (∀ k, k ∈ bs ↔ ∃ p ∈ e, manybodyKey o p.1 = key ∧ ∃ y, p.1.tensors.find? (fun y => decide (y.label = ['H'])) = some y ∧ spaceText o y = k) ∧
      ((∀ p ∈ e, manybodyKey o p.1 = key → (p.1.tensors.filter (fun y => decide (y.label = ['H']))).length ≤ 1) →
        ∀ k, k ∈ bs ↔ ∃ p ∈ e, manybodyKey o p.1 = key ∧ ∃ y ∈ p.1.tensors, y.label = ['H'] ∧ spaceText o y = k) := by
  intro o hgen hal hfmt hC hcoef hHT m hm name key resSym nocc nvir hname hres text ht
  have hreg : ∀ p ∈ e, OpsRegistered o p.1 := by
    intro p hp a ha
    have := (hC p hp).registered a.index (List.mem_append_left _ (List.mem_map_of_mem ha))
    unfold Index.Registered at this
    unfold OSI.numSpaces
    omega
  obtain ⟨m', hm', hnd, hk, hq, hperm⟩ := C55_partition ['R'] hreg
  rw [hm] at hm'
  cases hm'
  unfold generateFunction at ht
  by_cases hkm : key ∈ m.map Prod.fst
  swap
  · rw [dict_find_none hkm] at ht; cases ht
  obtain ⟨q, hqm, rfl⟩ := List.mem_map.1 hkm
  rw [dict_find hnd hqm] at ht
  dsimp only at ht
  cases hl : q.2.mapM (m := Except Fault) (fun q => q.compileEinsum o fmt) with
  | error err => rw [hl] at ht; cases ht
  | ok lines =>
    rw [hl] at ht
    simp only [bind, Except.bind, pure, Except.pure, Except.ok.injEq] at ht
    have hlines : ∀ l, l ∈ lines ↔ ∃ p ∈ e, manybodyKey o p.1 = q.1 ∧ (manybodyEquation ['R'] p.1 p.2).compileEinsum o fmt = .ok l := by
      intro l
      rw [hq q hqm] at hl
      have hF := (mapM_ok_iff _ _ _).1 hl
      constructor
      · intro h
        obtain ⟨eq, heq, hc⟩ := forall₂_right hF l h
        obtain ⟨p, hp, rfl⟩ := List.mem_map.1 heq
        obtain ⟨hp, hpk⟩ := List.mem_filter.1 hp
        exact ⟨p, hp, of_decide_eq_true hpk, hc⟩
      · rintro ⟨p, hp, hpk, hc⟩
        have : manybodyEquation ['R'] p.1 p.2 ∈ (e.filter (fun p => decide (manybodyKey o p.1 = q.1))).map (fun p => manybodyEquation ['R'] p.1 p.2) :=
          List.mem_map.2 ⟨p, List.mem_filter.2 ⟨hp, decide_eq_true hpk⟩, rfl⟩
        obtain ⟨l', hl', hc'⟩ := forall₂_left' hF _ this
        rw [hc] at hc'
        cases hc'
        exact hl'
    -- what is found in a line
    have hline : ∀ p ∈ e, ∀ l, (manybodyEquation ['R'] p.1 p.2).compileEinsum o fmt = .ok l →
        '\n' ∉ l ∧ lineBlock (indent ++ l) = .ok ((p.1.tensors.find? (fun y => decide (y.label = ['H']))).map (spaceText o)) := by
      intro p hp l hc
      obtain ⟨pre, L, h1, h2, h3, h4, h5, h6, ⟨a, b, h7⟩, h8⟩ := compiled_line hist (label := ['R']) (t := p.1) (c := p.2) hgen hal (by decide) hfmt (hC p hp) (hcoef p hp)
      rw [hc] at h1
      injection h1 with h1
      constructor
      · rw [h1]
        intro h
        rcases List.mem_append.1 h with h | h
        · rcases List.mem_append.1 h with h | h
          · exact h6 h
          · obtain ⟨x, hx, h⟩ := List.mem_flatMap.1 h
            obtain ⟨y, hy, rfl⟩ := List.mem_map.1 hx
            simp only [List.mem_cons, List.mem_append, List.not_mem_nil, or_false] at h
            rcases h with h | ((h | h) | h) | h
            · exact absurd h (by decide)
            · exact absurd ((hC p hp).words y hy _ h) (by decide)
            · revert h; decide
            · exact absurd (h8 y hy _ h) (by decide)
            · revert h; decide
        · exact absurd h (by decide)
      · have := lineBlock_call (pre := indent ++ pre) (by
            intro h
            rcases List.mem_append.1 h with h | h
            · exact absurd h (by decide)
            · exact h5 h) (by rw [h7]; exact ⟨indent ++ (['R'] ++ a), b, by simp only [List.append_assoc]⟩) (p.1.tensors.map (fun x => (x.label, spaceText o x))) (by
            intro x hx
            obtain ⟨y, hy, rfl⟩ := List.mem_map.1 hx
            exact ⟨hHT p hp y hy, h8 y hy⟩)
        rw [h1]
        rw [List.append_assoc, List.append_assoc, ← List.append_assoc pre] at this
        rw [this, List.find?_map, Option.map_map]
        rfl
    have hin : '\n' ∉ initText resSym nocc nvir ∧ '[' ∉ initText resSym nocc nvir := by
      unfold initText
      split
      · decide
      · constructor
        · intro h
          rcases List.mem_append.1 h with h | h
          · rcases List.mem_append.1 h with h | h
            · rcases List.mem_append.1 h with h | h
              · exact absurd (hres _ h) (by decide)
              · exact absurd h (by decide)
            · exact dims_notMem (by decide) (by decide) h
          · exact absurd h (by decide)
        · intro h
          rcases List.mem_append.1 h with h | h
          · rcases List.mem_append.1 h with h | h
            · rcases List.mem_append.1 h with h | h
              · exact absurd (hres _ h) (by decide)
              · exact absurd h (by decide)
            · exact dims_notMem (by decide) (by decide) h
          · exact absurd h (by decide)
    have hother : ∀ x ∈ ["def ".toList ++ name ++ "(H,T):".toList, indent ++ "# contributions to the residual".toList, indent ++ initText resSym nocc nvir, indent ++ "return ".toList ++ resSym],
        '\n' ∉ x ∧ '[' ∉ x := by
      have hw : ∀ d : Char, isWord d = false → d ∉ name ∧ d ∉ resSym := fun d hd => ⟨word_notMem hname hd, word_notMem hres hd⟩
      intro x hx
      simp only [List.mem_cons, List.not_mem_nil, or_false] at hx
      have key : ∀ (a b c : Str) (d : Char), d ∉ a → d ∉ b → d ∉ c → d ∉ a ++ b ++ c := by
        intro a b c d h1 h2 h3 h
        rcases List.mem_append.1 h with h | h
        · rcases List.mem_append.1 h with h | h
          exacts [h1 h, h2 h]
        · exact h3 h
      rcases hx with rfl | rfl | rfl | rfl
      · exact ⟨key _ _ _ _ (by decide) (hw _ (by decide)).1 (by decide), key _ _ _ _ (by decide) (hw _ (by decide)).1 (by decide)⟩
      · decide
      · exact ⟨fun h => (List.mem_append.1 h).elim (by decide) hin.1, fun h => (List.mem_append.1 h).elim (by decide) hin.2⟩
      · exact ⟨key _ _ _ _ (by decide) (by decide) (hw _ (by decide)).2, key _ _ _ _ (by decide) (by decide) (hw _ (by decide)).2⟩
    have htext : text = join ['\n'] (("def ".toList ++ name ++ "(H,T):".toList) :: (indent ++ "# contributions to the residual".toList) :: (indent ++ initText resSym nocc nvir) ::
        (lines.map (fun l => indent ++ l) ++ [indent ++ "return ".toList ++ resSym])) := by
      rw [← ht]; rfl
    generalize hA : "def ".toList ++ name ++ "(H,T):".toList = A at *
    generalize hB : indent ++ "# contributions to the residual".toList = B at *
    generalize hI : indent ++ initText resSym nocc nvir = I at *
    generalize hZ : indent ++ "return ".toList ++ resSym = Z at *
    have hmem : ∀ x ∈ A :: B :: I :: (lines.map (fun l => indent ++ l) ++ [Z]), ('\n' ∉ x ∧ '[' ∉ x) ∨ ∃ p ∈ e, manybodyKey o p.1 = q.1 ∧ ∃ l, (manybodyEquation ['R'] p.1 p.2).compileEinsum o fmt = .ok l ∧ x = indent ++ l := by
      intro x hx
      simp only [List.mem_cons, List.mem_append, List.mem_map, List.not_mem_nil, or_false] at hx
      rcases hx with rfl | rfl | rfl | ⟨l, hl, rfl⟩ | rfl
      · left; exact hother _ (by simp)
      · left; exact hother _ (by simp)
      · left; exact hother _ (by simp)
      · right
        obtain ⟨p, hp, hpk, hc⟩ := (hlines l).1 hl
        exact ⟨p, hp, hpk, l, hc, rfl⟩
      · left; exact hother _ (by simp)
    have hsplit := pySplit_join (l := A :: B :: I :: (lines.map (fun l => indent ++ l) ++ [Z])) (by simp) (by
      intro x hx
      rcases hmem x hx with h | ⟨p, hp, _, l, hc, rfl⟩
      · exact h.1
      · intro h
        exact (List.mem_append.1 h).elim (by decide) (hline p hp l hc).1)
    obtain ⟨bs, h1, h2, h3⟩ := foldlM_blocks (A :: B :: I :: (lines.map (fun l => indent ++ l) ++ [Z])) (fun s => match lineBlock s with | .ok b => b | .error _ => none) (by
      intro x hx
      rcases hmem x hx with h | ⟨p, hp, _, l, hc, rfl⟩
      · rw [lineBlock_none h.2]
      · rw [(hline p hp l hc).2]) [] List.nodup_nil
    have hfirst : ∀ k, k ∈ bs ↔ ∃ p ∈ e, manybodyKey o p.1 = q.1 ∧ ∃ y, p.1.tensors.find? (fun y => decide (y.label = ['H'])) = some y ∧ spaceText o y = k := by
      intro k
      rw [h3]
      constructor
      · rintro (h | ⟨x, hx, h⟩)
        · cases h
        · rcases hmem x hx with h' | ⟨p, hp, hpk, l, hc, rfl⟩
          · rw [lineBlock_none h'.2] at h; cases h
          · rw [(hline p hp l hc).2] at h
            obtain ⟨y, hy, hyk⟩ := Option.map_eq_some_iff.1 h
            exact ⟨p, hp, hpk, y, hy, hyk⟩
      · rintro ⟨p, hp, hpk, y, hy, hyk⟩
        right
        obtain ⟨pre, L, h1, -⟩ := compiled_line hist (label := ['R']) (t := p.1) (c := p.2) hgen hal (by decide) hfmt (hC p hp) (hcoef p hp)
        refine ⟨indent ++ (pre ++ argsText (p.1.tensors.map (fun x => (x.label, spaceText o x))) ++ einsumTail), ?_, ?_⟩
        · have := (hlines _).2 ⟨p, hp, hpk, h1⟩
          simp only [List.mem_cons, List.mem_append, List.mem_map]
          exact .inr (.inr (.inr (.inl ⟨_, this, rfl⟩)))
        · rw [(hline p hp _ h1).2, hy]
          exact congrArg some hyk
    refine ⟨bs, ?_, h2, hfirst, fun hone k => ?_⟩
    · unfold getIndexBlocks
      rw [htext, hsplit]
      exact h1
    · rw [hfirst]
      constructor
      · rintro ⟨p, hp, hpk, y, hy, hyk⟩
        exact ⟨p, hp, hpk, y, List.mem_of_find?_eq_some hy, by simpa using List.find?_some hy, hyk⟩
      · rintro ⟨p, hp, hpk, y, hy, hyl, hyk⟩
        refine ⟨p, hp, hpk, y, ?_, hyk⟩
        have h1 := hone p hp hpk
        have hm1 : y ∈ p.1.tensors.filter (fun y => decide (y.label = ['H'])) := List.mem_filter.2 ⟨hy, decide_eq_true hyl⟩
        rw [← List.head?_filter]
        generalize p.1.tensors.filter (fun y => decide (y.label = ['H'])) = l at h1 hm1
        match l, h1, hm1 with
        | [z], _, hz => rw [List.mem_singleton.1 hz]; rfl
        | [], _, hz => cases hz
        | _ :: _ :: _, h, _ => simp at h

/-! ## instances -/

/-- `H^{v1}_{v0} T^{o0}_{v1} a+(v0) a-(o0)` -/
def exHT : STerm := ⟨false, [⟨.creation, ⟨1, 0⟩⟩, ⟨.annihilation, ⟨0, 0⟩⟩], [⟨['H'], [⟨1, 0⟩], [⟨1, 1⟩], .antisymmetric, false⟩, ⟨['T'], [⟨1, 1⟩], [⟨0, 0⟩], .antisymmetric, false⟩]⟩

/-- `H^{v1}_{v0} H^{o0}_{v1} a+(v0) a-(o0)` -/
def exHH : STerm := ⟨false, [⟨.creation, ⟨1, 0⟩⟩, ⟨.annihilation, ⟨0, 0⟩⟩], [⟨['H'], [⟨1, 0⟩], [⟨1, 1⟩], .antisymmetric, false⟩, ⟨['H'], [⟨1, 1⟩], [⟨0, 0⟩], .antisymmetric, false⟩]⟩

theorem exHT_compilable : exHT.Compilable srReg := by
  constructor
  · decide
  · decide +kernel
  · unfold Index.Registered; decide +kernel
  · decide +kernel
  · decide +kernel
  · decide +kernel
  · decide +kernel
  · decide +kernel
  · decide +kernel

-- the hypotheses of C82 hold for `-1/2 H T`, and this is the function for one occupied and one virtual index
example : exHT.Compilable srReg ∧ Canon (⟨-1, 2⟩ : Rational) ∧ (2 : Int) ∣ 10 ^ 9 ∧
    ((Expr.toManybody srReg ['R'] [(exHT, ⟨-1, 2⟩)]).bind (fun m => generateEquation srReg (cutAt 9) m 1 1)).toOption.map String.ofList = some
      "def evaluate_residual_1_1(H,T):
    # contributions to the residual
    Rov = np.zeros((nocc,nvir))
    Rov += -0.500000000 * np.einsum(\"ab,ca->cb\",H[\"vv\"],T[\"ov\"],optimize=\"optimal\")
    return Rov" ∧
    ((Expr.toManybody srReg ['R'] [(exHT, ⟨-1, 2⟩)]).bind (fun m => (generateEquation srReg (cutAt 9) m 1 1).bind getIndexBlocks)).toOption = some [['v', 'v']] :=
  ⟨exHT_compilable, ⟨by decide, by decide⟩, by decide, by decide +kernel, by decide +kernel⟩

/-- **C82.** The claim that `get_index_blocks` returns all blocks is false: the function for `H H` uses the blocks `vv` and `ov` of `H`, only the first is returned. -/
theorem C82_missed_block : ∃ text F, (Expr.toManybody srReg ['R'] [(exHH, ⟨1, 1⟩)]).bind (fun m => generateEquation srReg (cutAt 9) m 1 1) = .ok text ∧
    readFunction text = some F ∧ (F.body.mapM readEinsum).map (fun L => L.map (·.args)) = some [[(['H'], ['v', 'v']), (['H'], ['o', 'v'])]] ∧
    getIndexBlocks text = .ok [['v', 'v']] := by
  obtain ⟨text, h1, h2⟩ := ok_of_check (x := (Expr.toManybody srReg ['R'] [(exHH, ⟨1, 1⟩)]).bind (fun m => generateEquation srReg (cutAt 9) m 1 1))
    (fun text => decide ((readFunction text).isSome = true ∧ ((readFunction text).bind (fun F => F.body.mapM readEinsum)).map (fun L => L.map (·.args)) = some [[(['H'], ['v', 'v']), (['H'], ['o', 'v'])]] ∧
      (getIndexBlocks text).toOption = some [['v', 'v']])) (by decide +kernel)
  obtain ⟨h3, h4, h5⟩ := of_decide_eq_true h2
  obtain ⟨F, hF⟩ := Option.isSome_iff_exists.1 h3
  refine ⟨text, F, h1, hF, by rw [hF] at h4; exact h4, ?_⟩
  cases hg : getIndexBlocks text with
  | error err => rw [hg] at h5; cases h5
  | ok bs => rw [hg] at h5; exact congrArg Except.ok (Option.some.inj h5)

end Wicked
