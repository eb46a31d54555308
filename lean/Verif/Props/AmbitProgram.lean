import Verif.Spec.AmbitProgram
import Verif.Props.AmbitSem
import Verif.Props.Program
/-! # C66: the ambit program for all equations of a key, with a bound for the error of the rounded factors -/
namespace Wicked
open CppLt CppEq Rational

section
variable {Ω R A : Type} [Inhabited Ω] [DecidableEq Ω] [CommRing R] [Ring A] [Algebra R A]

theorem ambit_runs [Algebra ℚ R] {o : OSI} {fmt6 fmt9 : Rational → Str} {label : Str} {v : OrbSystem Ω R A} {arr : Str → Str → List Ω → R} {dom : Char → Finset Ω}
    (val : Rational → ℚ) (target : Str × Str) (l : Expr) (hl : ∀ p ∈ l, ∃ text L, (manybodyEquation label p.1 p.2).compile o fmt6 fmt9 "ambit".toList = .ok text ∧ readAmbit text = some L ∧
      (L.target.1, L.target.2.map AmbitLine.space) = target ∧ L.Accepted ∧ decimalVal L.factor = some (val p.2) ∧ ∀ x, L.element arr dom x = (manybodyEquation label p.1 p.2).element v (lhsOf label p.1) x) :
    ∃ lines, (l.map (fun p => manybodyEquation label p.1 p.2)).mapM (m := Except Fault) (fun q => q.compile o fmt6 fmt9 "ambit".toList) = .ok lines ∧
      ∀ s, AmbitRuns arr dom lines s (fun block x => if block = target then
        s block x + (l.map (fun p => algebraMap ℚ R (val p.2) * (manybodyEquation label p.1 p.2).element v (lhsOf label p.1) x)).sum else s block x) := by
  induction l with
  | nil => exact ⟨[], rfl, fun s => by funext name x; simp⟩
  | cons p l ih =>
    obtain ⟨lines, h1, h2⟩ := ih (fun q hq => hl q (by simp [hq]))
    obtain ⟨text, L, hc, hr, ht, ha, hf, he⟩ := hl p (by simp)
    refine ⟨text :: lines, ?_, fun s => ?_⟩
    · rw [List.map_cons, List.mapM_cons, hc, h1]; rfl
    · refine ⟨L, val p.2, hr, ha, hf, ?_⟩
      have := h2 (fun block x => if block = (L.target.1, L.target.2.map AmbitLine.space) then s block x + algebraMap ℚ R (val p.2) * L.element arr dom x else s block x)
      convert this using 1
      funext block x
      by_cases hn : block = target
      · simp only [hn, ht, if_true, List.map_cons, List.sum_cons, he, add_assoc]
      · simp [hn, ht]

/-- **C66**, the program of all equations of a key: for every expression whose terms can be compiled, the statements that `compile("ambit")` generates for the equations of a key, run one after the other, leave in the block of the key an array whose
distance from the exact sum of the equations is at most a millionth of the sum of the absolute values of the contractions. -/
theorem C66_program_error {S : Type} [Field S] [LinearOrder S] [IsStrictOrderedRing S] [Algebra ℚ R] (abv : AbsoluteValue R S)
    (habv : ∀ c : ℚ, abv (algebraMap ℚ R c) = ((|c| : ℚ) : S)) (hist : List RegOp) {fmt6 fmt9 : Rational → Str} {label : Str} {e : Expr} :
    let o := runReg OSI.empty hist
    (∀ s ∈ o.spaces, isAlpha s.label = true) → (label ≠ [] ∧ ∀ c ∈ label, isWord c = true) → PrintsSix fmt6 →
    (∀ p ∈ e, p.1.Compilable o ∧ ∀ y ∈ p.1.tensors, y.label ≠ []) → (∀ p ∈ e, Canon p.2) →
    ∀ (v : OrbSystem Ω R A) (arr : Str → Str → List Ω → R) (dom : Char → Finset Ω),
    (∀ p ∈ e, ∀ y ∈ p.1.tensors, ∀ l u, l.length = y.lower.length → u.length = y.upper.length → arr y.label (spaceText o y) (u ++ l) = v.T y.label l u) →
    (∀ (n : Nat) s, o.spaces[n]? = some s → dom s.label = v.dom n) →
    ∃ m, e.toManybody o label = .ok m ∧ ∀ q ∈ m, ∃ (lines : List Str) (array : List Ω → R), q.2.mapM (m := Except Fault) (fun q => q.compile o fmt6 fmt9 "ambit".toList) = .ok lines ∧
        AmbitRuns arr dom lines (fun _ _ => 0) (fun block x => if block = (label, keyUpper q.1 ++ keyLower q.1) then array x else 0) ∧
        ∀ x, abv (array x - (q.2.map (fun eq => algebraMap ℚ R (toRat eq.factor) * (eq.lhs.tensors.map (fun t => eq.element v t x)).sum)).sum) ≤
          1 / 10 ^ 6 * (q.2.map (fun eq => abv (eq.lhs.tensors.map (fun t => eq.element v t x)).sum)).sum := by
  intro o hal hlab hfmt hC hcoef v arr dom harr hdom
  have hbar : ∀ s ∈ o.spaces, s.label ≠ '|' := fun s hs h => absurd (hal s hs) (by rw [h]; decide)
  have hreg : ∀ p ∈ e, OpsRegistered o p.1 := by
    intro p hp a ha
    have := (hC p hp).1.registered a.index (List.mem_append_left _ (List.mem_map_of_mem ha))
    unfold Index.Registered at this
    unfold OSI.numSpaces
    omega
  obtain ⟨m, hm, hnd, hk, hq, hperm⟩ := C55_partition label hreg
  refine ⟨m, hm, fun q hqm => ?_⟩
  have key : ∀ p ∈ e.filter (fun p => decide (manybodyKey o p.1 = q.1)), ∃ text L, (manybodyEquation label p.1 p.2).compile o fmt6 fmt9 "ambit".toList = .ok text ∧ readAmbit text = some L ∧
      (L.target.1, L.target.2.map AmbitLine.space) = (label, keyUpper q.1 ++ keyLower q.1) ∧ L.Accepted ∧ decimalVal L.factor = some (litVal fmt6 p.2) ∧
      ∀ x, L.element arr dom x = (manybodyEquation label p.1 p.2).element v (lhsOf label p.1) x := by
    intro p hp
    obtain ⟨hp, hpk⟩ := List.mem_filter.1 hp
    have hpk := of_decide_eq_true hpk
    have hCp := (hC p hp).1
    obtain ⟨text, L, h1, h2, h3, h3', h4, h5, h6⟩ := C66_ambit_computes_partial hist fmt6 fmt9 (manybodyEquation label p.1 p.2) (lhsOf label p.1) hal rfl rfl rfl
      (fun i hi => hCp.registered i ((einsumIndices_allIdx label p.1 p.2 i).1 hi))
      (by
        intro y hy
        rcases List.mem_cons.1 hy with rfl | hy
        · exact hlab
        · exact ⟨(hC p hp).2 y hy, hCp.words y hy⟩)
      hCp.some (lhs_nodup label hCp.creFirst hCp.own)
      (by
        intro i hi
        have : ∃ a ∈ p.1.ops, a.index = i := by
          rcases List.mem_append.1 hi with hi | hi
          · obtain ⟨a, ha, rfl⟩ := List.mem_map.1 (List.mem_reverse.1 hi)
            exact ⟨a, (List.mem_filter.1 ha).1, rfl⟩
          · obtain ⟨a, ha, rfl⟩ := List.mem_map.1 hi
            exact ⟨a, (List.mem_filter.1 ha).1, rfl⟩
        obtain ⟨a, ha, rfl⟩ := this
        exact hCp.covered a ha)
      (by
        obtain ⟨⟨a, b, hab, _, _, ha, hb⟩, _⟩ := hfmt p.2 (hcoef p hp)
        intro hsp
        have hd : ∀ s : Str, (∀ x ∈ s, isDigit x = true) → ' ' ∉ s := fun s hs h => absurd (hs _ h) (by decide)
        have hsp : ' ' ∈ fmt6 p.2 := hsp
        rcases hab with hab | hab
        · rw [hab] at hsp
          simp at hsp
          rcases hsp with h | h
          · exact hd a ha h
          · exact hd b hb h
        · rw [hab] at hsp
          simp at hsp
          rcases hsp with h | h
          · exact hd a ha h
          · exact hd b hb h)
    refine ⟨text, L, h1, h2, ?_, h5, ?_, fun x => h6 v arr dom ⟨fun y hy => harr p hp y hy, hdom⟩ x⟩
    · rw [h3, h3', ← hpk, ← spaceText_key hbar label hCp (hreg p hp)]
      rfl
    · obtain ⟨_, x, hx, _⟩ := hfmt p.2 (hcoef p hp)
      rw [h4]
      show decimalVal (fmt6 p.2) = some (litVal fmt6 p.2)
      unfold litVal
      rw [hx]; rfl
  obtain ⟨lines, hl, hr⟩ := ambit_runs (litVal fmt6) (label, keyUpper q.1 ++ keyLower q.1) _ key
  have hq' := hq q hqm
  refine ⟨lines, fun x => (q.2.map (fun eq => algebraMap ℚ R (litVal fmt6 eq.factor) * (eq.lhs.tensors.map (fun t => eq.element v t x)).sum)).sum, ?_, ?_, fun x => ?_⟩
  · rw [hq']; exact hl
  · convert hr (fun _ _ => 0) using 1
    funext block x
    by_cases hb : block = (label, keyUpper q.1 ++ keyLower q.1)
    · rw [if_pos hb, if_pos hb, zero_add, hq']; dsimp only; rw [List.map_map]
      congr 1
      apply List.map_congr_left
      intro p _
      show _ = algebraMap ℚ R (litVal fmt6 p.2) * _
      show algebraMap ℚ R (litVal fmt6 p.2) * ((manybodyEquation label p.1 p.2).element v (lhsOf label p.1) x + 0) = _
      rw [add_zero]
    · rw [if_neg hb, if_neg hb]
  · have := abv_rounded_sum abv habv (ε := 1 / 10 ^ 6) q.2 (fun eq => toRat eq.factor) (fun eq => litVal fmt6 eq.factor) (by
      intro eq he
      rw [hq'] at he
      obtain ⟨p, hp, rfl⟩ := List.mem_map.1 he
      obtain ⟨_, x, hx, h⟩ := hfmt p.2 (hcoef p (List.mem_filter.1 hp).1)
      show |litVal fmt6 p.2 - toRat p.2| < _
      unfold litVal
      rw [hx]; exact h) (fun eq => (eq.lhs.tensors.map (fun t => eq.element v t x)).sum)
    have h6 : (((1 / 10 ^ 6 : ℚ)) : S) = 1 / 10 ^ 6 := by push_cast; rfl
    rw [h6] at this
    exact this
end

namespace Wick

theorem cut6_prints : PrintsSix (cutAt 6) := fun c hc => cutAt_prints (by decide) c hc

/-- `1/3 f^{v0}_{o0} t^{o0}_{v0}`, a term whose factor is rounded -/
def exThird : Expr := [(⟨false, [], [⟨['f'], [⟨0, 0⟩], [⟨1, 0⟩], .antisymmetric, false⟩, ⟨['t'], [⟨1, 0⟩], [⟨0, 0⟩], .antisymmetric, false⟩]⟩, ⟨1, 3⟩)]

-- all hypotheses hold for a term with the factor `1/3`, all elements one and two orbitals in each space: the statements run
example : ∃ m, exThird.toManybody srReg ['E'] = .ok m ∧ ∀ q ∈ m, ∃ (lines : List Str) (array : List Bool → ℚ),
    q.2.mapM (m := Except Fault) (fun q => q.compile srReg (cutAt 6) (cutAt 9) "ambit".toList) = .ok lines ∧
      AmbitRuns (fun _ _ _ => (1 : ℚ)) (fun _ => (Finset.univ : Finset Bool)) lines (fun _ _ => 0) (fun block x => if block = (['E'], keyUpper q.1 ++ keyLower q.1) then array x else 0) := by
  have := C66_program_error (Ω := Bool) (R := ℚ) (A := ℚ) (S := ℚ) AbsoluteValue.abs (fun c => by simp) srHistory (fmt6 := cutAt 6) (fmt9 := cutAt 9) (label := ['E']) (e := exThird)
    (by decide +kernel) (by decide) cut6_prints (by
      intro p hp
      rw [exThird, List.mem_singleton] at hp
      subst hp
      refine ⟨⟨by decide, by decide, ?_, by decide, by decide, by decide, by decide, by decide, by decide⟩, by decide⟩
      unfold Index.Registered
      decide +kernel) (by
      intro p hp
      rw [exThird, List.mem_singleton] at hp
      subst hp
      constructor <;> decide) ⟨fun _ => Finset.univ, fun _ _ _ => 1, fun _ _ => 0⟩ (fun _ _ _ => 1) (fun _ => Finset.univ) (fun _ _ _ _ _ _ _ _ => rfl) (fun _ _ _ => rfl)
  obtain ⟨m, hm, h⟩ := this
  refine ⟨m, hm, fun q hq => ?_⟩
  obtain ⟨lines, array, h1, h2, _⟩ := h q hq
  exact ⟨lines, array, h1, h2⟩

end Wick
end Wicked
