import Verif.Props.Determinant
/-! # C93, C94: with operators of rank three the value depends on the division of the orbitals into spaces -/
namespace Wicked
open GenOp Wick

/-- the first three of six orbitals are occupied -/
def hole6 (x : Fin 6) : Bool := x.val < 3
/-- antisymmetric tensors on six orbitals -/
noncomputable def sixSys (dom : Int → Finset (Fin 6)) : OrbSystem (Fin 6) ℚ (Module.End ℚ (FockSpace (Fin 6) ℚ)) :=
  ⟨dom, fun _ l u => vdm (l.map (fun x => (x.val : ℤ))) * vdm (u.map (fun x => (x.val : ℤ))), fockOp ℚ hole6⟩
/-- occupied and virtual orbitals -/
def sixA (s : Int) : Finset (Fin 6) := if s = 0 then {0, 1, 2} else {3, 4, 5}
/-- core, occupied and virtual orbitals -/
def sixB (s : Int) : Finset (Fin 6) := if s = 0 then {0} else if s = 1 then {1, 2} else {3, 4, 5}
/-- the occupied (`true`) and the virtual orbitals -/
def sixOrbs (b : Bool) : Finset (Fin 6) := if b then {0, 1, 2} else {3, 4, 5}
/-- their labels without a core space -/
def sixLettersA (b : Bool) : Str := if b then "o".toList else "v".toList
/-- their labels with a core space -/
def sixLettersB (b : Bool) : Str := if b then "co".toList else "v".toList
/-- `gen_op("f", 3, occupied, virtual) @ gen_op("t", 3, virtual, occupied)` -/
def prog3 : GenProg Bool := .mul (.gen "f".toList 3 true false) (.gen "t".toList 3 false true)

theorem six_anti (dom : Int → Finset (Fin 6)) : (sixSys dom).Antisymmetric := by
  intro lab
  refine ⟨fun pre a b post u => ?_, fun l pre a b post => ?_⟩
  · show vdm _ * vdm _ = -(vdm _ * vdm _)
    simp only [List.map_append, List.map_cons]
    rw [vdm_anti]; ring
  · show vdm _ * vdm _ = -(vdm _ * vdm _)
    simp only [List.map_append, List.map_cons]
    rw [vdm_anti]; ring

theorem six_namesA : Names (runReg OSI.empty srHistory) (sixSys sixA) sixLettersA sixOrbs where
  nodup := by decide +kernel
  alpha := by decide +kernel
  orbs := by
    intro a
    show (sixLettersA a).toFinset.biUnion (fun c => match (runReg OSI.empty srHistory).labelToSpace c with | .ok s => sixA s | .error _ => ∅) = sixOrbs a
    revert a; decide +kernel
  disjoint := by
    intro s s' hs hs' hne
    have hs : s < 2 := hs
    have hs' : s' < 2 := hs'
    show ∀ x ∈ sixA s, x ∉ sixA s'
    interval_cases s <;> interval_cases s' <;> first | exact absurd rfl hne | decide

theorem six_namesB : Names (runReg OSI.empty coreHistory) (sixSys sixB) sixLettersB sixOrbs where
  nodup := by decide +kernel
  alpha := by decide +kernel
  orbs := by
    intro a
    show (sixLettersB a).toFinset.biUnion (fun c => match (runReg OSI.empty coreHistory).labelToSpace c with | .ok s => sixB s | .error _ => ∅) = sixOrbs a
    revert a; decide +kernel
  disjoint := by
    intro s s' hs hs' hne
    have hs : s < 3 := hs
    have hs' : s' < 3 := hs'
    show ∀ x ∈ sixB s, x ∉ sixB s'
    interval_cases s <;> interval_cases s' <;> first | exact absurd rfl hne | decide

theorem six_vacA : (sixSys sixA).Vacuum (runReg OSI.empty srHistory) hole6 := by
  refine ⟨?_, six_namesA.disjoint⟩
  intro s hs
  have hs : s < 2 := hs
  interval_cases s
  · left; exact ⟨by decide +kernel, by show ∀ x ∈ sixA 0, hole6 x = true; decide⟩
  · right; exact ⟨by decide +kernel, by show ∀ x ∈ sixA 1, hole6 x = false; decide⟩

theorem six_vacB : (sixSys sixB).Vacuum (runReg OSI.empty coreHistory) hole6 := by
  refine ⟨?_, six_namesB.disjoint⟩
  intro s hs
  have hs : s < 3 := hs
  interval_cases s
  · left; exact ⟨by decide +kernel, by show ∀ x ∈ sixB 0, hole6 x = true; decide⟩
  · left; exact ⟨by decide +kernel, by show ∀ x ∈ sixB 1, hole6 x = true; decide⟩
  · right; exact ⟨by decide +kernel, by show ∀ x ∈ sixB 2, hole6 x = false; decide⟩

/-- running the program and contracting it fully -/
def runFull (o : OSI) (letters : Bool → Str) : Res (OpExpr × Expr) :=
  prog3.run o letters >>= fun E => contractExpr o {} (Rational.ofInt 1) E 0 0 >>= fun e => pure (E, e)

theorem runFull_ok {o : OSI} {letters : Bool → Str} {x : OpExpr × Expr} (h : runFull o letters = .ok x) :
    prog3.run o letters = .ok x.1 ∧ contractExpr o {} (Rational.ofInt 1) x.1 0 0 = .ok x.2 := by
  obtain ⟨E, hE, hx⟩ := bind_ok' h
  obtain ⟨e, he, hx⟩ := bind_ok' hx
  cases hx
  exact ⟨hE, he⟩

theorem six_runA : ∃ x, runFull (runReg OSI.empty srHistory) sixLettersA = .ok x ∧ decide (Lin.eval (sixSys sixA).scalarValue x.2 = 64) = true :=
  ok_of_check (x := runFull (runReg OSI.empty srHistory) sixLettersA) (fun q => decide (Lin.eval (sixSys sixA).scalarValue q.2 = 64)) (by decide +kernel)

theorem six_runB : ∃ x, runFull (runReg OSI.empty coreHistory) sixLettersB = .ok x ∧ decide (Lin.eval (sixSys sixB).scalarValue x.2 = 32) = true :=
  ok_of_check (x := runFull (runReg OSI.empty coreHistory) sixLettersB) (fun q => decide (Lin.eval (sixSys sixB).scalarValue q.2 = 32)) (by decide +kernel)

/-- **C93**, **C94**, negation in general: all hypotheses but the bound on the rank hold, for full contractions with respect to a determinant, and the two values are different:
with a core space the same program gives half the value, since fewer contractions are alike (C50). -/
theorem C94_three_body_depends :
    allOk OSI.empty srHistory ∧ allOk OSI.empty coreHistory ∧ (sixSys sixA).T = (sixSys sixB).T ∧ (sixSys sixA).op = (sixSys sixB).op ∧
    Names (runReg OSI.empty srHistory) (sixSys sixA) sixLettersA sixOrbs ∧ Names (runReg OSI.empty coreHistory) (sixSys sixB) sixLettersB sixOrbs ∧
    (∀ d, (sixSys d).Antisymmetric ∧ IsCAR (sixSys d).op) ∧ (sixSys sixA).Vacuum (runReg OSI.empty srHistory) hole6 ∧ (sixSys sixB).Vacuum (runReg OSI.empty coreHistory) hole6 ∧
    IsVacuumExpectation (sixSys sixA).op hole6 (fockExpectation ℚ) ∧ prog3.NonZero ∧ prog3.maxRank = 3 ∧
    ∃ E E' e e', prog3.run (runReg OSI.empty srHistory) sixLettersA = .ok E ∧ prog3.run (runReg OSI.empty coreHistory) sixLettersB = .ok E' ∧
      contractExpr (runReg OSI.empty srHistory) {} (Rational.ofInt 1) E 0 0 = .ok e ∧ contractExpr (runReg OSI.empty coreHistory) {} (Rational.ofInt 1) E' 0 0 = .ok e' ∧
      Lin.eval (sixSys sixA).scalarValue e = 64 ∧ Lin.eval (sixSys sixB).scalarValue e' = 32 := by
  refine ⟨by refine ⟨?_, ?_, trivial⟩ <;> decide +kernel, by refine ⟨?_, ?_, ?_, trivial⟩ <;> decide +kernel, rfl, rfl, six_namesA, six_namesB, fun d => ⟨six_anti d, fock_car hole6⟩,
    six_vacA, six_vacB, fock_expectation hole6, ⟨trivial, trivial⟩, by decide, ?_⟩
  obtain ⟨x, hx, h2⟩ := six_runA
  obtain ⟨x', hx', h2'⟩ := six_runB
  exact ⟨x.1, x'.1, x.2, x'.2, (runFull_ok hx).1, (runFull_ok hx').1, (runFull_ok hx).2, (runFull_ok hx').2, of_decide_eq_true h2, of_decide_eq_true h2'⟩
end Wicked
