import Verif.Props.SpinResidual
import Verif.Proofs.FockSpace
/-! # An instance of the convergence theorem for spin-integrated programs (C85): spaces `o`, `v`, `O`, `V` with one orbital each -/
namespace Wicked
open CppLt CppEq Rational Lin
namespace Wick

def spinHistory : List RegOp :=
  [.add 'o' .fermion .occupied [] [], .add 'v' .fermion .unoccupied [] [], .add 'O' .fermion .occupied [] [], .add 'V' .fermion .unoccupied [] []]

abbrev spinReg : OSI := runReg OSI.empty spinHistory

/-- the orbital space with a given label: the orbitals 0 and 2 are occupied, 0 and 1 have spin up -/
def spinDom (c : Char) : Finset (Fin 4) := if c = 'o' then {0} else if c = 'v' then {1} else if c = 'O' then {2} else {3}

def spinHole (x : Fin 4) : Bool := x = 0 ∨ x = 2

noncomputable def spinSys : OrbSystem (Fin 4) ℚ (Module.End ℚ (FockSpace (Fin 4) ℚ)) :=
  ⟨fun s => if s = 0 then {0} else if s = 1 then {1} else if s = 2 then {2} else {3},
    fun _ l u => if l.length ≤ 1 ∧ u.length ≤ 1 then 1 else 0, fockOp ℚ spinHole⟩

def spinH : OpExpr := oneProd [mkOp "H" [(0, 0), (0, 0), (1, 0), (0, 1)]]
def spinT : OpExpr := oneProd [mkOp "T" [(0, 0), (0, 0), (0, 1), (1, 0)]]

theorem spin_anti : spinSys.Antisymmetric := by
  intro lab
  refine ⟨fun pre a b post u => ?_, fun l pre a b post => ?_⟩
  · simp only [spinSys, List.length_append, List.length_cons]
    rw [if_neg (by omega)]; simp
  · simp only [spinSys, List.length_append, List.length_cons]
    rw [if_neg (by omega)]; simp

theorem spin_vacuum : spinSys.Vacuum spinReg spinHole := by
  refine ⟨?_, ?_⟩
  · intro s hs
    have hs : s < 4 := hs
    interval_cases s
    · left; exact ⟨by decide +kernel, by simp [spinSys, spinHole]⟩
    · right; exact ⟨by decide +kernel, by simp [spinSys, spinHole]⟩
    · left; exact ⟨by decide +kernel, by simp [spinSys, spinHole]⟩
    · right; exact ⟨by decide +kernel, by simp [spinSys, spinHole]⟩
  · intro s s' hs hs' hne
    have hs : s < 4 := hs
    have hs' : s' < 4 := hs'
    interval_cases s <;> interval_cases s' <;> simp_all [spinSys]

theorem spin_input : CCInput spinReg spinH spinT 2 := by
  refine ⟨oneProd_built _, oneProd_built _, fun q hq => by rw [mem_oneProd hq]; decide, fun q hq => by rw [mem_oneProd hq]; decide, fun q hq => by rw [mem_oneProd hq]; decide +kernel, ?_, ?_, ?_, ?_⟩
  · intro x hx
    have := oneProd_ops hx
    rw [List.mem_singleton] at this; subst this
    exact mkOp_valid _ _ _ (by decide) (by decide)
  · intro x hx s
    have := oneProd_ops hx
    rw [List.mem_singleton] at this; subst this
    by_cases hs : s < 8
    · interval_cases s <;> decide
    · have h1 : (mkOp "H" [(0, 0), (0, 0), (1, 0), (0, 1)]).gm.cre s = 0 := by simp [mkOp, GraphMatrix.cre, gm_get_tab, hs]
      have h2 : (mkOp "H" [(0, 0), (0, 0), (1, 0), (0, 1)]).gm.ann s = 0 := by simp [mkOp, GraphMatrix.ann, gm_get_tab, hs]
      omega
  · intro x hx
    have := oneProd_ops hx
    rw [List.mem_singleton] at this; subst this
    refine ⟨⟨mkOp_valid _ _ _ (by decide) (by decide), by decide +kernel⟩, by decide +kernel, ?_, ?_⟩
    · intro s h
      by_cases hs : s < 8
      · interval_cases s <;> first | (exact absurd rfl h) | decide +kernel | (revert h; decide +kernel)
      · exact absurd (by simp [mkOp, GraphMatrix.cre, gm_get_tab, hs]) h
    · intro s h
      by_cases hs : s < 8
      · interval_cases s <;> first | (exact absurd rfl h) | decide +kernel | (revert h; decide +kernel)
      · exact absurd (by simp [mkOp, GraphMatrix.ann, gm_get_tab, hs]) h
  · rintro x (hx | hx)
    · have := oneProd_ops hx
      rw [List.mem_singleton] at this; subst this
      decide
    · have := oneProd_ops hx
      rw [List.mem_singleton] at this; subst this
      decide

def spinN : Nat → Nat := fun s => if s = 2 then 1 else 0
def spinK : Nat → Nat := fun s => if s = 3 then 1 else 0
theorem spinN_labels : repeatLabels (runReg OSI.empty spinHistory) spinN = ['O'] := by decide
theorem spinK_labels : repeatLabels (runReg OSI.empty spinHistory) spinK = ['V'] := by decide

theorem spin_contract : ∃ e, contractExpr spinReg {} (Rational.ofInt 1) (OpExpr.bchSeries spinH spinT 2) 0 2 = .ok e ∧
    ((∀ p ∈ e, p.1.allIdx.toFinset.card ≤ 52 ∧ p.2.den ∣ 10 ^ 9) ∧ (∀ p ∈ e, ∀ y ∈ p.1.tensors, y.lower.length ≤ 1 ∧ y.upper.length ≤ 1) ∧
      (∀ p ∈ e, ∀ y ∈ p.1.tensors, y.label = ['H'] ∨ y.label = ['T']) ∧
      ((Expr.toManybody spinReg ['R'] e).bind (fun m => generateEquationSpace spinReg (cutAt 9) m 1 1 (spaceKey spinReg spinN spinK))).toOption.isSome = true) := by
  obtain ⟨e, he, h1⟩ := ok_of_check (x := contractExpr spinReg {} (Rational.ofInt 1) (OpExpr.bchSeries spinH spinT 2) 0 2) (fun e =>
    decide ((∀ p ∈ e, p.1.allIdx.toFinset.card ≤ 52 ∧ p.2.den ∣ 10 ^ 9) ∧ (∀ p ∈ e, ∀ y ∈ p.1.tensors, y.lower.length ≤ 1 ∧ y.upper.length ≤ 1) ∧
      (∀ p ∈ e, ∀ y ∈ p.1.tensors, y.label = ['H'] ∨ y.label = ['T']) ∧
      ((Expr.toManybody spinReg ['R'] e).bind (fun m => generateEquationSpace spinReg (cutAt 9) m 1 1 (spaceKey spinReg spinN spinK))).toOption.isSome = true)) (by decide +kernel)
  exact ⟨e, he, of_decide_eq_true h1⟩

-- all hypotheses of `C85_converged_spin_partial` hold together for one occupied and one virtual orbital of each spin, `H = H^V_O` and `T = T^O_V`
example : ∃ e m text r D T' t', contractExpr spinReg {} (Rational.ofInt 1) (OpExpr.bchSeries spinH spinT 2) 0 2 = .ok e ∧ e.toManybody spinReg ['R'] = .ok m ∧
    generateEquationSpace spinReg (cutAt 9) m 1 1 "O|V".toList = .ok text ∧
    ReturnsArray (fun _ _ _ => (1 : ℚ)) spinDom text "evaluate_residual_OV".toList (some ["nocc".toList, "nvir".toList]) r ∧
    inverseDenominatorsSpin [("oo".toList, ⟨[1, 1], fun _ => 0⟩), ("vv".toList, ⟨[1, 1], fun _ => (1 : ℚ)⟩)] 1 = .ok D ∧
    updateAmplitudesSpin [("ov".toList, ⟨[1, 1], fun _ => 1⟩), ("OV".toList, ⟨[1, 1], fun _ => 1⟩)]
      [("ov".toList, ⟨[1, 1], fun _ => 0⟩), ("OV".toList, ⟨[1, 1], fun _ => r [2, 3]⟩)] D 1 = .ok T' ∧ HasArray T' (ampKey 0 1) t' ∧
    ((∀ I A, Within [1] I → Within [1] A → t'.elem (I ++ A) = 1) ↔
      ∀ u w : List (Fin 4), List.Forall₂ (· ∈ ·) u [spinDom 'O'] → List.Forall₂ (· ∈ ·) w [spinDom 'V'] →
        fockExpectation ℚ (bra (fockOp ℚ spinHole) u w *
          (IsNilpotent.exp (-spinSys.exprValue spinHole 4 spinT) * spinSys.exprValue spinHole 4 spinH * IsNilpotent.exp (spinSys.exprValue spinHole 4 spinT))) = 0) := by
  obtain ⟨e, he, hb, ht, hHT, hs1⟩ := spin_contract
  have hgen : ∀ s ∈ spinReg.spaces, ∀ name ∈ s.indices, ∀ (c : Char) (n : Int), name ≠ c :: '_' :: '{' :: (intStr n ++ ['}']) := by
    intro s hs name hn
    have h0 : ∀ s ∈ spinReg.spaces, s.indices = [] := by decide
    rw [h0 s hs] at hn
    cases hn
  have harr : ∀ p ∈ e, ∀ y ∈ p.1.tensors, ∀ (l u : List (Fin 4)), l.length = y.lower.length → u.length = y.upper.length → (1 : ℚ) = spinSys.T y.label l u := by
    intro p hp y hy l u hl hu
    have := ht p hp y hy
    show (1 : ℚ) = if l.length ≤ 1 ∧ u.length ≤ 1 then 1 else 0
    rw [if_pos ⟨by omega, by omega⟩]
  have hdom : ∀ (n : Nat) s, spinReg.spaces[n]? = some s → spinDom s.label = spinSys.dom n := by
    intro n s hs
    match n with
    | 0 => cases hs; decide
    | 1 => cases hs; decide
    | 2 => cases hs; decide
    | 3 => cases hs; decide
    | n + 4 => cases hs
  obtain ⟨m, hm, hres⟩ := C85_residual_space_partial (Ω := Fin 4) (R := ℚ) spinHistory (fmt := (cutAt 9)) (cfg := {}) (H := spinH) (T := spinT) (N := 2) (ord := 2) (minr := 0) (maxr := 2) (e := e)
    hgen (by decide) cut9_prints (by decide) spin_input (by decide) he hb hHT
    spinSys (fun _ _ _ => 1) spinDom spinHole (fockExpectation ℚ) spin_anti (fock_car _) spin_vacuum (fock_expectation _) harr hdom
  rw [hm] at hs1
  have hr := hres spinN spinK 1 1 (by decide) (by decide) (by decide) (by decide)
  rcases hr with ⟨text1, r1, hg1, hr1, hp1⟩ | ⟨hg, _⟩
  swap
  · have : (generateEquationSpace spinReg (cutAt 9) m 1 1 (spaceKey spinReg spinN spinK)).toOption.isSome = true := hs1
    rw [hg] at this
    cases this
  obtain ⟨D, hD, hDX⟩ := C83_denominators_spin (S := ℚ) [("oo".toList, ⟨[1, 1], fun _ => 0⟩), ("vv".toList, ⟨[1, 1], fun _ => (1 : ℚ)⟩)] ⟨[1, 1], fun _ => 0⟩ ⟨[1, 1], fun _ => 1⟩ 1 1 rfl rfl rfl rfl 1 (by decide)
  have hM : ∀ k l : Nat, 1 ≤ k + l → k + l ≤ 3 → ((k + l : Nat) : Int) ≤ 1 → MatchingBlocks [("ov".toList, ⟨[1, 1], fun _ => (1 : ℚ)⟩), ("OV".toList, ⟨[1, 1], fun _ => 1⟩)]
      [("ov".toList, ⟨[1, 1], fun _ => 0⟩), ("OV".toList, ⟨[1, 1], fun _ => r1 [2, 3]⟩)] D (ampKey k l) := by
    intro k l h1 _ h2
    obtain ⟨X, hX, hXi⟩ := hDX k l h1 h2
    rcases (by omega : k = 0 ∧ l = 1 ∨ k = 1 ∧ l = 0) with ⟨rfl, rfl⟩ | ⟨rfl, rfl⟩
    · exact ⟨⟨[1, 1], fun _ => (1 : ℚ)⟩, ⟨[1, 1], fun _ => r1 [2, 3]⟩, X, rfl, rfl, hX, by rw [hXi.1]; rfl, rfl⟩
    · exact ⟨⟨[1, 1], fun _ => (1 : ℚ)⟩, ⟨[1, 1], fun _ => 0⟩, X, rfl, rfl, hX, by rw [hXi.1]; rfl, rfl⟩
  obtain ⟨T', hT', hU, _⟩ := C83_update_spin (S := ℚ) _ _ D 1 hM
  obtain ⟨t, r, d, t', _, _, _, ht', _, _⟩ := hU 0 1 (by decide) (by decide) (by decide)
  refine ⟨e, m, text1, r1, D, T', t', he, hm, hg1, hr1, hD, hT', ht', ?_⟩
  have key := C85_converged_spin_partial (Ω := Fin 4) (R := ℚ) spinHistory (fmt := (cutAt 9)) (cfg := {}) (H := spinH) (T := spinT) (N := 2) (ord := 2) (minr := 0) (maxr := 2) (e := e)
    hgen (by decide) cut9_prints (by decide) spin_input (by decide) he hb hHT
    spinSys (fun _ _ _ => 1) spinDom spinHole (fockExpectation ℚ) spin_anti (fock_car _) spin_vacuum (fock_expectation _) harr hdom
    (fun _ => 0) (fun _ => 2) (fun _ => 1) (fun _ => 3) 1 1
    (by intro x; simp [spinDom, eq_comm]) (by intro x; simp [spinDom, eq_comm]) (by intro x; simp [spinDom, eq_comm]) (by intro x; simp [spinDom, eq_comm])
    (by intro x hx; simp [spinDom] at hx; rcases hx with rfl | rfl <;> decide) (by intro x hx; simp [spinDom] at hx; rcases hx with rfl | rfl <;> decide) m hm
    [("oo".toList, ⟨[1, 1], fun _ => 0⟩), ("vv".toList, ⟨[1, 1], fun _ => (1 : ℚ)⟩)] _ _ D T'
    ⟨[1, 1], fun _ => 0⟩ ⟨[1, 1], fun _ => 1⟩ 1 rfl rfl rfl rfl hD hM hT' 0 1 spinN spinK spinN_labels spinK_labels (by decide) (by decide) (by decide) (by decide)
    (by
      intro I A hI hA
      have h1 := (positions_within hA).1
      match A, h1 with
      | [a], _ => simp) text1 hg1 ⟨[1, 1], fun _ => (1 : ℚ)⟩ ⟨[1, 1], fun _ => r1 [2, 3]⟩ t' rfl rfl ht'
    (by
      intro result hresult I J A C hI hJ hA hC
      have h1 := returnsArray_unique hresult hr1
      subst h1
      have h1 := (positions_within hI).1
      have h2 := (positions_within hJ).1
      have h3 := (positions_within hA).1
      have h4 := (positions_within hC).1
      rw [spinN_labels, spinK_labels]
      match I, J, A, C, h1, h2, h3, h4 with
      | [], [i], [], [a], _, _, _, _ => exact (C84_one_one 'O' 'V' result 2 3).symm)
  rw [spinN_labels, spinK_labels] at key
  exact key
end Wick
end Wicked
