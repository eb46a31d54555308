import Verif.Props.CCEquations
import Verif.Proofs.FockCharge
/-! # C102: the equations of the notebook for all electrons determine exact eigenstates -/
namespace Wicked
open CppLt CppEq Rational Lin GenOp OpExpr Equiv

namespace Wick

/-- **C102**: full coupled cluster with the equations that `cc_equations(n)` of CoupledClusterEquations.ipynb returns. `n` is at least the number of occupied or the number of unoccupied orbitals.
For all tensors and orbitals: the equations of all ranks other than zero, antisymmetrised, vanish for all determinants if and only if `exp(T)|reference⟩` is an eigenstate of the Hamiltonian `E_0 + f + v` in Fock space with the
number that the equations of rank zero give as eigenvalue; it has no other eigenvalue. -/
theorem C102_exact (hist : List RegOp) (hok : allOk OSI.empty hist) {cfg : WickCfg} {n : Nat} {eqs : List (Nat × List Equation)} :
    let o := runReg OSI.empty hist
    o.spaces.map (fun s => (s.label, s.spaceType)) = [('o', .occupied), ('v', .unoccupied)] → 1 ≤ n → n ≤ 6 → ccEquations o cfg n = .ok eqs →
    ∀ (Ω R : Type) [Inhabited Ω] [Fintype Ω] [LinearOrder Ω] [CommRing R] [Algebra ℚ R] (tensor : Str → List Ω → List Ω → R) (hole : Ω → Bool),
    let occ : Finset Ω := Finset.univ.filter (fun x => hole x = true)
    let vir : Finset Ω := Finset.univ.filter (fun x => hole x = false)
    let v : OrbSystem Ω R (Module.End R (FockSpace Ω R)) := ⟨fun s => if s = 0 then occ else vir, tensor, fockOp R hole⟩
    occ.card ≤ n ∨ vir.card ≤ n → v.Antisymmetric →
    let N := normalProd hole (fockOp R hole)
    let H := tensor "E_0".toList [] [] • 1 + manyBody (tensor ['f']) N 1 Finset.univ Finset.univ + manyBody (tensor ['v']) N 2 Finset.univ Finset.univ
    let T := ((List.range n).map (fun k => manyBody (tensor ['t']) N (k + 1) vir occ)).sum
    let state := IsNilpotent.exp T (fockVacuum R)
    ∃ energy, (0, energy) ∈ eqs ∧
      ((∀ q ∈ eqs, q.1 ≠ 0 → ∀ u l : List Ω, u.length = q.1 → l.length = q.1 → (∀ x ∈ u, hole x = true) → (∀ x ∈ l, hole x = false) →
          antisymmetrizer 0 q.1 (antisymmetrizer q.1 q.1 (equationsElement v q.2)) (u ++ l) = 0) ↔
        H state = equationsElement v energy [] • state) ∧
      ∀ c : R, H state = c • state → c = equationsElement v energy [] := by
  intro o ho h1 h6 heqs Ω R _ _ _ _ _ tensor hole occ vir v hcard hv N H T state
  obtain ⟨eqs', he', hfst, _, hval⟩ := C101_notebook hist hok (cfg := cfg) ho h1 h6
  rw [heqs] at he'
  cases he'
  have hval := hval Ω R tensor hole hv
  obtain ⟨_, _, _, _, _, _, _, _, hnil, _⟩ := cc_equations_value (cfg := cfg) hist hok ho h1 h6 tensor hole hv
  change IsNilpotent T at hnil
  have hT : T ∈ shifts R hole 0 := by
    apply list_sum_mem
    intro x hx
    obtain ⟨k, _, rfl⟩ := List.mem_map.1 hx
    exact shifts_manyBody _ _ _ _ _
  have hH : H ∈ shifts R hole 0 := by
    apply Submodule.add_mem
    · exact Submodule.add_mem _ (Submodule.smul_mem _ _ (shifts_one hole)) (shifts_manyBody _ _ _ _ _)
    · exact shifts_manyBody _ _ _ _ _
  have hT' : -T ∈ shifts R hole 0 := by
    rw [← neg_one_smul R T]
    exact Submodule.smul_mem _ _ hT
  have hval' : ∀ q ∈ eqs, ∀ u l : List Ω, u.length = q.1 → l.length = q.1 → (∀ x ∈ u, hole x = true) → (∀ x ∈ l, hole x = false) →
      antisymmetrizer 0 q.1 (antisymmetrizer q.1 q.1 (equationsElement v q.2)) (u ++ l) = fockExpectation R (bra (fockOp R hole) u l * (IsNilpotent.exp (-T) * H * IsNilpotent.exp T)) := hval
  have hWs : IsNilpotent.exp (-T) * H * IsNilpotent.exp T ∈ shifts R hole 0 := by
    have := shifts_mul (shifts_mul (shifts_exp hT') hH) (shifts_exp hT)
    rwa [add_zero, add_zero] at this
  have hexp : IsNilpotent.exp T * (IsNilpotent.exp (-T) * H * IsNilpotent.exp T) = H * IsNilpotent.exp T := by
    rw [← mul_assoc, ← mul_assoc, IsNilpotent.exp_mul_exp_neg_self hnil, one_mul]
  have hexp' : IsNilpotent.exp (-T) * (IsNilpotent.exp T) = 1 := IsNilpotent.exp_neg_mul_exp_self hnil
  have hinv : ∀ y : FockSpace Ω R, (IsNilpotent.exp (-T) : Module.End R (FockSpace Ω R)) (IsNilpotent.exp T y) = y := by
    intro y
    rw [← Module.End.mul_apply, hexp']; rfl
  generalize hW : IsNilpotent.exp (-T) * H * IsNilpotent.exp T = W at hval' hWs hexp
  have hrank : ∀ r, r ≤ n → ∃ e, (r, e) ∈ eqs := by
    intro r hr
    have : r ∈ eqs.map Prod.fst := by rw [hfst]; exact List.mem_range.2 (by omega)
    obtain ⟨q, hq, rfl⟩ := List.mem_map.1 this
    exact ⟨q.2, hq⟩
  obtain ⟨energy, hen⟩ := hrank 0 (by omega)
  have hE : equationsElement v energy [] = W (fockVacuum R) ∅ := by
    have := hval' _ hen [] [] rfl rfl (by simp) (by simp)
    have hb : fockExpectation R (bra (fockOp R hole) [] [] * W) = W (fockVacuum R) ∅ := by
      rw [show bra (fockOp R hole) [] [] = 1 by simp [bra], one_mul]; rfl
    rw [hb] at this
    rw [← this]
    simp [antisymmetrizer, permuted]
  have heig : ∀ c : R, H state = c • state ↔ W (fockVacuum R) = c • fockVacuum R := by
    intro c
    have e1 : H state = IsNilpotent.exp T (W (fockVacuum R)) := by
      have := congrArg (fun x => (x : Module.End R (FockSpace Ω R)) (fockVacuum R)) hexp
      exact this.symm
    constructor
    · intro h
      rw [e1, ← map_smul] at h
      have := congrArg (fun x => (IsNilpotent.exp (-T) : Module.End R (FockSpace Ω R)) x) h
      rw [hinv, hinv] at this
      exact this
    · intro h
      rw [e1]
      conv_lhs => rw [h]
      rw [map_smul]
  refine ⟨energy, hen, ?_, fun c hc => ?_⟩
  swap
  · rw [hE, (heig c).1 hc]
    simp [fockVacuum]
  rw [hE, heig]
  constructor
  · intro hres
    apply eq_vacuum
    intro S hS
    by_contra hne
    have hc := shifts_vacuum hWs hne
    have hle : (S.filter (fun x => hole x = true)).card ≤ n := by
      rcases hcard with h | h
      · exact (Finset.card_le_card (Finset.filter_subset_filter _ (Finset.subset_univ S))).trans h
      · rw [← hc]
        exact (Finset.card_le_card (Finset.filter_subset_filter _ (Finset.subset_univ S))).trans h
    have hset : S.filter (fun x => hole x = true) ∪ S.filter (fun x => hole x = false) = S := by
      ext x
      simp only [Finset.mem_union, Finset.mem_filter]
      cases hole x <;> simp
    have hpos : (S.filter (fun x => hole x = true)).card ≠ 0 := by
      intro h0
      rw [h0] at hc
      apply hS
      rw [← hset, Finset.card_eq_zero.1 h0, Finset.card_eq_zero.1 hc, Finset.empty_union]
    obtain ⟨e, he⟩ := hrank _ hle
    have hu : ∀ x ∈ (S.filter (fun x => hole x = true)).toList, hole x = true := fun x hx => (Finset.mem_filter.1 (Finset.mem_toList.1 hx)).2
    have hl : ∀ x ∈ (S.filter (fun x => hole x = false)).toList, hole x = false := fun x hx => (Finset.mem_filter.1 (Finset.mem_toList.1 hx)).2
    have h0 := hres _ he hpos _ _ (Finset.length_toList _) ((Finset.length_toList _).trans hc) hu hl
    rw [hval' _ he _ _ (Finset.length_toList _) ((Finset.length_toList _).trans hc) hu hl] at h0
    obtain ⟨ε, hε, hbra⟩ := expectation_bra (R := R) hu hl (Finset.nodup_toList _) (Finset.nodup_toList _)
    rw [hbra, Finset.toList_toFinset, Finset.toList_toFinset, hset] at h0
    apply hne
    rcases hε with e | e <;> rw [e] at h0
    · rwa [one_mul] at h0
    · rwa [neg_one_mul, neg_eq_zero] at h0
  · intro hWv q hq hq0 u l hu hl hhu hhl
    rw [hval' q hq u l hu hl hhu hhl]
    have hne : ¬ (u = [] ∧ l = []) := fun h => hq0 (by rw [← hu, h.1]; rfl)
    show (bra (fockOp R hole) u l * W) (fockVacuum R) ∅ = 0
    rw [Module.End.mul_apply, hWv, map_smul, bra_vacuum hhu hhl hne, smul_zero]
    rfl

/-! ## an instance: one electron in two orbitals -/

/-- one-body tensors: `f` exchanges the two orbitals, the amplitude is one -/
def tensorX (lab : Str) (l u : List (Fin 2)) : ℚ :=
  if lab = ['f'] then (if l.length = 1 ∧ u.length = 1 ∧ l ≠ u then 1 else 0) else if lab = ['t'] then (if l.length = 1 ∧ u.length = 1 then 1 else 0) else 0

def holeX (x : Fin 2) : Bool := decide (x = 0)

theorem tensorX_anti {A : Type} (dom : Int → Finset (Fin 2)) (op : SQType → Fin 2 → A) : (⟨dom, tensorX, op⟩ : OrbSystem (Fin 2) ℚ A).Antisymmetric := by
  have h0 : ∀ lab (l u : List (Fin 2)), 2 ≤ l.length ∨ 2 ≤ u.length → tensorX lab l u = 0 := by
    intro lab l u h
    unfold tensorX
    have h1 : ¬ (l.length = 1 ∧ u.length = 1 ∧ l ≠ u) := by rintro ⟨h1, h2, _⟩; omega
    have h2 : ¬ (l.length = 1 ∧ u.length = 1) := by rintro ⟨h1, h2⟩; omega
    rw [if_neg h1, if_neg h2, ite_self, ite_self]
  intro lab
  refine ⟨fun pre a b post u => ?_, fun l pre a b post => ?_⟩
  · show tensorX lab _ _ = - tensorX lab _ _
    rw [h0 _ _ _ (.inl (by simp; omega)), h0 _ _ _ (.inl (by simp; omega)), neg_zero]
  · show tensorX lab _ _ = - tensorX lab _ _
    rw [h0 _ _ _ (.inr (by simp; omega)), h0 _ _ _ (.inr (by simp; omega)), neg_zero]

theorem one_body {Ω R B : Type} [DecidableEq Ω] [CommRing R] [Ring B] [Algebra R B] [Algebra ℚ B] (T : List Ω → List Ω → R) (N : List (SQType × Ω) → B) (C A : Finset Ω) :
    manyBody T N 1 C A = ∑ p ∈ C, ∑ q ∈ A, T [p] [q] • N [(.creation, p), (.annihilation, q)] := by
  have hs : ∀ (S : Finset Ω) (F : (Fin 1 → Ω) → B) (G : Ω → B), (∀ p, F p = G (p 0)) → ∑ p ∈ Fintype.piFinset (fun _ : Fin 1 => S), F p = ∑ p ∈ S, G p := by
    intro S F G h
    refine Finset.sum_bij (fun p _ => p 0) ?_ ?_ ?_ ?_
    · intro p hp; exact Fintype.mem_piFinset.1 hp 0
    · intro p _ q _ e; funext i; rw [Subsingleton.elim i 0]; exact e
    · intro x hx; exact ⟨fun _ => x, Fintype.mem_piFinset.2 (fun _ => hx), rfl⟩
    · intro p _; exact h p
  unfold manyBody
  rw [Nat.factorial_one, Nat.cast_one, mul_one, div_one, one_smul]
  exact hs C _ _ (fun p => hs A _ _ (fun q => by simp))

/-- the excitation of the electron -/
noncomputable def exciteX : Module.End ℚ (FockSpace (Fin 2) ℚ) := quasiCre ℚ 1 * quasiCre ℚ 0
noncomputable def deexciteX : Module.End ℚ (FockSpace (Fin 2) ℚ) := quasiAnn ℚ 0 * quasiAnn ℚ 1

theorem excite_normal : normalProd holeX (fockOp ℚ holeX) [(.creation, 1), (.annihilation, 0)] = exciteX := by
  have h0 : holeX 0 = true := rfl
  have h1 : holeX 1 = false := rfl
  simp [normalProd, normalSign, kills, h0, h1, fockOp, exciteX]

theorem deexcite_normal : normalProd holeX (fockOp ℚ holeX) [(.creation, 0), (.annihilation, 1)] = deexciteX := by
  have h0 : holeX 0 = true := rfl
  have h1 : holeX 1 = false := rfl
  simp [normalProd, normalSign, kills, h0, h1, fockOp, deexciteX]

theorem exciteX_vacuum : exciteX (fockVacuum ℚ) = Finsupp.single {0, 1} (-1) := by
  unfold exciteX fockVacuum
  rw [Module.End.mul_apply, quasiCre_single, if_neg (by decide), quasiCre_single, if_neg (by decide)]
  rw [show insert (1 : Fin 2) (insert 0 ∅) = ({0, 1} : Finset (Fin 2)) by decide]
  congr 1
  have e1 : fockSign ℚ (1 : Fin 2) (insert 0 ∅) = -1 := by
    unfold fockSign
    rw [show (Finset.filter (fun x : Fin 2 => x < 1) (insert 0 ∅)).card = 1 by decide, pow_one]
  have e2 : fockSign ℚ (0 : Fin 2) ∅ = 1 := by simp [fockSign]
  rw [e1, e2]; norm_num

theorem deexciteX_vacuum : deexciteX (fockVacuum ℚ) = 0 := by
  unfold deexciteX
  rw [Module.End.mul_apply, quasiAnn_vacuum, map_zero]

theorem exciteX_full (r : ℚ) : exciteX (Finsupp.single {0, 1} r) = 0 := by
  unfold exciteX
  rw [Module.End.mul_apply, quasiCre_single, if_pos (by decide), map_zero]

theorem deexciteX_full : deexciteX (Finsupp.single {0, 1} (-1)) = fockVacuum ℚ := by
  unfold deexciteX fockVacuum
  rw [Module.End.mul_apply, quasiAnn_single, if_pos (by decide), quasiAnn_single, if_pos (by decide)]
  rw [show (({0, 1} : Finset (Fin 2)).erase 1).erase 0 = ∅ by decide]
  congr 1
  have e1 : fockSign ℚ (1 : Fin 2) {0, 1} = -1 := by
    unfold fockSign
    rw [show (Finset.filter (fun x : Fin 2 => x < 1) {0, 1}).card = 1 by decide, pow_one]
  have e2 : fockSign ℚ (0 : Fin 2) (({0, 1} : Finset (Fin 2)).erase 1) = 1 := by
    unfold fockSign
    rw [show (Finset.filter (fun x : Fin 2 => x < 0) (({0, 1} : Finset (Fin 2)).erase 1)).card = 0 by decide, pow_zero]
  rw [e1, e2]; norm_num

theorem exciteX_sq : exciteX * exciteX = 0 := by
  apply end_ext
  intro S
  unfold exciteX
  rw [Module.End.mul_apply, Module.End.mul_apply, Module.End.mul_apply, quasiCre_single]
  split_ifs with h0
  · rw [map_zero, map_zero, map_zero]; rfl
  rw [quasiCre_single]
  split_ifs with h1
  · rw [map_zero, map_zero]; rfl
  rw [quasiCre_single, if_pos (by simp), map_zero]; rfl

-- all hypotheses hold together: for one electron in two orbitals that the Hamiltonian exchanges and the amplitude one, the equations of `cc_equations(1)` vanish, and the energy is one
example : ∃ eqs energy, ccEquations (runReg OSI.empty srHistory) {} 1 = .ok eqs ∧ (0, energy) ∈ eqs ∧
    let v : OrbSystem (Fin 2) ℚ (Module.End ℚ (FockSpace (Fin 2) ℚ)) :=
      ⟨fun s => if s = 0 then Finset.univ.filter (fun x => holeX x = true) else Finset.univ.filter (fun x => holeX x = false), tensorX, fockOp ℚ holeX⟩
    equationsElement v energy [] = 1 ∧ ∀ q ∈ eqs, q.1 = 1 → antisymmetrizer 0 1 (antisymmetrizer 1 1 (equationsElement v q.2)) [0, 1] = 0 := by
  have hok : allOk OSI.empty srHistory := by refine ⟨?_, ?_, trivial⟩ <;> decide +kernel
  have ho : (runReg OSI.empty srHistory).spaces.map (fun s => (s.label, s.spaceType)) = [('o', .occupied), ('v', .unoccupied)] := by decide +kernel
  obtain ⟨eqs, heqs, _⟩ := C101_notebook srHistory hok (cfg := {}) (n := 1) ho (by decide) (by decide)
  obtain ⟨energy, hen, hiff, hE⟩ := C102_exact srHistory hok (cfg := {}) (n := 1) ho (by decide) (by decide) heqs (Fin 2) ℚ tensorX holeX (.inl (by decide)) (tensorX_anti _ _)
  have hT : ((List.range 1).map (fun k => manyBody (tensorX ['t']) (normalProd holeX (fockOp ℚ holeX)) (k + 1) (Finset.univ.filter (fun x => holeX x = false)) (Finset.univ.filter (fun x => holeX x = true)))).sum = exciteX := by
    have e1 : Finset.univ.filter (fun x => holeX x = false) = {1} := by decide
    have e2 : Finset.univ.filter (fun x => holeX x = true) = {0} := by decide
    rw [e1, e2]
    show manyBody _ _ 1 _ _ + 0 = _
    rw [add_zero, one_body, Finset.sum_singleton, Finset.sum_singleton, excite_normal, show tensorX ['t'] [1] [0] = 1 by rfl, one_smul]
  have hH : tensorX "E_0".toList [] [] • (1 : Module.End ℚ (FockSpace (Fin 2) ℚ)) + manyBody (tensorX ['f']) (normalProd holeX (fockOp ℚ holeX)) 1 Finset.univ Finset.univ +
      manyBody (tensorX ['v']) (normalProd holeX (fockOp ℚ holeX)) 2 Finset.univ Finset.univ = deexciteX + exciteX := by
    rw [show tensorX "E_0".toList [] [] = 0 by rfl, zero_smul, zero_add, manyBody_zero (n := 2) (T := tensorX ['v']) _ _ _ (fun l u _ => by rfl), add_zero, one_body]
    rw [Fin.sum_univ_two, Fin.sum_univ_two, Fin.sum_univ_two, excite_normal, deexcite_normal, show tensorX ['f'] [0] [0] = 0 by rfl, show tensorX ['f'] [1] [1] = 0 by rfl,
      show tensorX ['f'] [0] [1] = 1 by rfl, show tensorX ['f'] [1] [0] = 1 by rfl, zero_smul, zero_smul, one_smul, one_smul, zero_add, add_zero]
  have hexp : IsNilpotent.exp exciteX = 1 + exciteX := by
    rw [IsNilpotent.exp_eq_sum (show exciteX ^ 2 = 0 by rw [pow_two]; exact exciteX_sq), Finset.sum_range_succ, Finset.sum_range_one]
    simp
  rw [hT, hH, hexp] at hiff hE
  have heig : (deexciteX + exciteX) ((1 + exciteX) (fockVacuum ℚ)) = (1 : ℚ) • ((1 + exciteX) (fockVacuum ℚ)) := by
    rw [one_smul, LinearMap.add_apply, LinearMap.add_apply, Module.End.one_apply, exciteX_vacuum, map_add, map_add, deexciteX_vacuum, exciteX_vacuum, deexciteX_full, exciteX_full]
    abel
  have h1 := hE 1 heig
  refine ⟨eqs, energy, heqs, hen, h1.symm, fun q hq hq1 => ?_⟩
  rw [← h1] at hiff
  have := hiff.2 heig q hq (by rw [hq1]; decide) [0] [1] hq1.symm hq1.symm (by decide) (by decide)
  rw [hq1] at this
  exact this

end Wick
end Wicked
