import Verif.Props.CCExact
import Verif.Proofs.ClusterUnique
/-! # C103: every eigenstate uniquely solves the equations of the notebook -/
namespace Wicked
open CppLt CppEq Rational Lin GenOp OpExpr Equiv

namespace Wick

/-- **C103**: the equations of CoupledClusterEquations.ipynb for all electrons miss no eigenstate. `n` is at least the number of occupied or the number of unoccupied orbitals.
For all tensors and orbitals, and every eigenstate `y` of `E_0 + f + v` in Fock space with as many electrons as the reference and the coefficient one on the reference, there are antisymmetric amplitudes `t` with `exp(T)|reference⟩ = y`, and no other ones for excitations of ranks up to `n`;
with these amplitudes all equations of the ranks other than zero, antisymmetrised, vanish, and the equations of rank zero give the eigenvalue. -/
theorem C103_complete (hist : List RegOp) (hok : allOk OSI.empty hist) {cfg : WickCfg} {n : Nat} {eqs : List (Nat × List Equation)} :
    let o := runReg OSI.empty hist
    o.spaces.map (fun s => (s.label, s.spaceType)) = [('o', .occupied), ('v', .unoccupied)] → 1 ≤ n → n ≤ 6 → ccEquations o cfg n = .ok eqs →
    ∀ (Ω R : Type) [Inhabited Ω] [Fintype Ω] [LinearOrder Ω] [CommRing R] [Algebra ℚ R] (tensor : Str → List Ω → List Ω → R) (hole : Ω → Bool),
    let occ : Finset Ω := Finset.univ.filter (fun x => hole x = true)
    let vir : Finset Ω := Finset.univ.filter (fun x => hole x = false)
    let system : (Str → List Ω → List Ω → R) → OrbSystem Ω R (Module.End R (FockSpace Ω R)) := fun tensor => ⟨fun s => if s = 0 then occ else vir, tensor, fockOp R hole⟩
    occ.card ≤ n ∨ vir.card ≤ n → (system tensor).Antisymmetric →
    let N := normalProd hole (fockOp R hole)
    let H := tensor "E_0".toList [] [] • 1 + manyBody (tensor ['f']) N 1 Finset.univ Finset.univ + manyBody (tensor ['v']) N 2 Finset.univ Finset.univ
    ∀ (y : FockSpace Ω R) (c : R), y ∅ = 1 → (∀ S, y S ≠ 0 → (S.filter (fun x => hole x = false)).card = (S.filter (fun x => hole x = true)).card) → H y = c • y →
    ∃ t : List Ω → List Ω → R,
      let v := system (fun lab => if lab = ['t'] then t else tensor lab)
      v.Antisymmetric ∧ IsNilpotent.exp (((List.range n).map (fun k => manyBody t N (k + 1) vir occ)).sum) (fockVacuum R) = y ∧
      (∀ q ∈ eqs, q.1 = 0 → equationsElement v q.2 [] = c) ∧
      (∀ q ∈ eqs, q.1 ≠ 0 → ∀ u l : List Ω, u.length = q.1 → l.length = q.1 → (∀ x ∈ u, hole x = true) → (∀ x ∈ l, hole x = false) →
        antisymmetrizer 0 q.1 (antisymmetrizer q.1 q.1 (equationsElement v q.2)) (u ++ l) = 0) ∧
      ∀ t' : List Ω → List Ω → R, (system (fun lab => if lab = ['t'] then t' else tensor lab)).Antisymmetric →
        IsNilpotent.exp (((List.range n).map (fun k => manyBody t' N (k + 1) vir occ)).sum) (fockVacuum R) = y →
        ∀ l u : List Ω, 1 ≤ l.length → l.length ≤ n → l.length = u.length → (∀ x ∈ u, hole x = true) → (∀ x ∈ l, hole x = false) → t' l u = t l u := by
  intro o ho h1 h6 heqs Ω R _ _ _ _ _ tensor hole occ vir system hcard hv N H y c hy0 hyc hy
  obtain ⟨t, ht1, ht2, hexp⟩ := cluster_exists (R := R) hy0 hyc hcard
  let tensor' : Str → List Ω → List Ω → R := fun lab => if lab = ['t'] then t else tensor lab
  have hT : tensor' ['t'] = t := if_pos rfl
  have hE0 : tensor' "E_0".toList = tensor "E_0".toList := if_neg (by decide)
  have hF : tensor' ['f'] = tensor ['f'] := if_neg (by decide)
  have hV : tensor' ['v'] = tensor ['v'] := if_neg (by decide)
  have hv' : (system tensor').Antisymmetric := by
    intro lab
    by_cases h : lab = ['t']
    · subst h
      refine ⟨fun pre a b post u => ?_, fun l pre a b post => ?_⟩
      · show tensor' ['t'] _ _ = - tensor' ['t'] _ _
        rw [hT]; exact ht1 u pre a b post
      · show tensor' ['t'] _ _ = - tensor' ['t'] _ _
        rw [hT]; exact ht2 l pre a b post
    · have e : tensor' lab = tensor lab := if_neg h
      refine ⟨fun pre a b post u => ?_, fun l pre a b post => ?_⟩
      · show tensor' lab _ _ = - tensor' lab _ _
        rw [e]; exact (hv lab).1 pre a b post u
      · show tensor' lab _ _ = - tensor' lab _ _
        rw [e]; exact (hv lab).2 l pre a b post
  obtain ⟨energy, hen, hiff, hE⟩ := C102_exact hist hok (cfg := cfg) (n := n) ho h1 h6 heqs Ω R tensor' hole hcard hv'
  rw [hT, hE0, hF, hV] at hiff hE
  have hexp' : IsNilpotent.exp (((List.range n).map (fun k => manyBody t (normalProd hole (fockOp R hole)) (k + 1) (Finset.univ.filter (fun x => hole x = false)) (Finset.univ.filter (fun x => hole x = true)))).sum) (fockVacuum R) = y := hexp
  rw [hexp'] at hiff hE
  have hc := hE c hy
  have huniq : ∀ t' : List Ω → List Ω → R, (system (fun lab => if lab = ['t'] then t' else tensor lab)).Antisymmetric →
      IsNilpotent.exp (((List.range n).map (fun k => manyBody t' (normalProd hole (fockOp R hole)) (k + 1) vir occ)).sum) (fockVacuum R) = y →
      ∀ l u : List Ω, 1 ≤ l.length → l.length ≤ n → l.length = u.length → (∀ x ∈ u, hole x = true) → (∀ x ∈ l, hole x = false) → t' l u = t l u := by
    intro t' ha he
    refine cluster_unique_upto (fun u pre a b post => ?_) (fun l pre a b post => ?_) ht1 ht2 n (fun S _ => ?_)
    · have := (ha ['t']).1 pre a b post u
      simpa [system] using this
    · have := (ha ['t']).2 l pre a b post
      simpa [system] using this
    · exact (DFunLike.congr_fun he S).trans (DFunLike.congr_fun hexp S).symm
  refine ⟨t, hv', hexp', fun q hq hq0 => ?_, hiff.2 (by rw [← hc]; exact hy), huniq⟩
  obtain ⟨eqs', he', hfst, _⟩ := C101_notebook hist hok (cfg := cfg) ho h1 h6
  rw [heqs] at he'
  cases he'
  have hnd : (eqs.map Prod.fst).Nodup := by rw [hfst]; exact List.nodup_range
  have := List.inj_on_of_nodup_map hnd hq hen hq0
  rw [this]
  exact hc.symm

-- all hypotheses hold together: the electron shared evenly between the two orbitals of `C102_exact`'s instance is an eigenstate with eigenvalue one, so there is an amplitude that solves the equations with the energy one
example : ∃ eqs, ccEquations (runReg OSI.empty srHistory) {} 1 = .ok eqs ∧ ∃ t : List (Fin 2) → List (Fin 2) → ℚ,
    let v : OrbSystem (Fin 2) ℚ (Module.End ℚ (FockSpace (Fin 2) ℚ)) :=
      ⟨fun s => if s = 0 then Finset.univ.filter (fun x => holeX x = true) else Finset.univ.filter (fun x => holeX x = false), fun lab => if lab = ['t'] then t else tensorX lab, fockOp ℚ holeX⟩
    ∀ q ∈ eqs, q.1 = 0 → equationsElement v q.2 [] = 1 := by
  have hok : allOk OSI.empty srHistory := by refine ⟨?_, ?_, trivial⟩ <;> decide +kernel
  have ho : (runReg OSI.empty srHistory).spaces.map (fun s => (s.label, s.spaceType)) = [('o', .occupied), ('v', .unoccupied)] := by decide +kernel
  obtain ⟨eqs, heqs, _⟩ := C101_notebook srHistory hok (cfg := {}) (n := 1) ho (by decide) (by decide)
  refine ⟨eqs, heqs, ?_⟩
  have hH : tensorX "E_0".toList [] [] • (1 : Module.End ℚ (FockSpace (Fin 2) ℚ)) + manyBody (tensorX ['f']) (normalProd holeX (fockOp ℚ holeX)) 1 Finset.univ Finset.univ +
      manyBody (tensorX ['v']) (normalProd holeX (fockOp ℚ holeX)) 2 Finset.univ Finset.univ = deexciteX + exciteX := by
    rw [show tensorX "E_0".toList [] [] = 0 by rfl, zero_smul, zero_add, manyBody_zero (n := 2) (T := tensorX ['v']) _ _ _ (fun l u _ => by rfl), add_zero, one_body]
    rw [Fin.sum_univ_two, Fin.sum_univ_two, Fin.sum_univ_two, excite_normal, deexcite_normal, show tensorX ['f'] [0] [0] = 0 by rfl, show tensorX ['f'] [1] [1] = 0 by rfl,
      show tensorX ['f'] [0] [1] = 1 by rfl, show tensorX ['f'] [1] [0] = 1 by rfl, zero_smul, zero_smul, one_smul, one_smul, zero_add, add_zero]
  have key := C103_complete srHistory hok (cfg := {}) (n := 1) ho (by decide) (by decide) heqs (Fin 2) ℚ tensorX holeX (.inl (by decide)) (tensorX_anti _ _)
  obtain ⟨t, _, _, h, _⟩ := key (fockVacuum ℚ + Finsupp.single {0, 1} (-1)) 1 (by
      rw [Finsupp.add_apply, Finsupp.single_apply, if_neg (by decide)]; simp [fockVacuum]) (by
      intro S hS
      rw [Finsupp.add_apply, fockVacuum, Finsupp.single_apply, Finsupp.single_apply] at hS
      split_ifs at hS with h0 h1 h1
      · rw [← h0]; rfl
      · rw [← h0]; rfl
      · rw [← h1]; decide
      · simp at hS) (by
      refine (congrArg (fun W : Module.End ℚ (FockSpace (Fin 2) ℚ) => W (fockVacuum ℚ + Finsupp.single {0, 1} (-1))) hH).trans ?_
      show (deexciteX + exciteX) _ = _
      rw [one_smul, LinearMap.add_apply, map_add, map_add, deexciteX_vacuum, exciteX_vacuum, deexciteX_full, exciteX_full]
      abel)
  exact ⟨t, h⟩

end Wick
end Wicked
