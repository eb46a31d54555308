import Verif.Spec.CCEquations
import Verif.Proofs.CCEquations
import Verif.Props.SpinKeys
import Verif.Props.Equations
/-! # C101: the notebook that derives the coupled-cluster equations -/
namespace Wicked
open CppLt CppEq Rational Lin GenOp OpExpr Equiv

namespace Wick
/-- the program for the Hamiltonian of CoupledClusterEquations.ipynb -/
def ccHamProg : GenProg (Fin 3) := .plus (.plus (.gen "E_0".toList 0 0 0) (.gen ['f'] 1 0 0)) (.gen ['v'] 2 0 0)

theorem ccHam_run (o : OSI) : ccHamiltonian o = ccHamProg.run o letters2 := by
  have h : OpExpr.make o "E_0".toList [[]] false = genOp o "E_0".toList ((0 : Nat) : Int) (letters2 0) (letters2 0) true := by
    show _ = (do let ts ← terms o 0 (letters2 0) (letters2 0) true; OpExpr.make o "E_0".toList ts false : Res OpExpr)
    have ht : terms o 0 (letters2 0) (letters2 0) true = .ok [[' ']] := rfl
    rw [ht]
    show _ = OpExpr.make o "E_0".toList [[' ']] false
    unfold OpExpr.make
    simp [findOps, isAlpha]
  unfold ccHamiltonian ccHamProg
  rw [h]
  simp only [GenProg.run, bind_assoc, pure_bind]
  rfl

theorem makeT_run (hist : List RegOp) (hok : allOk OSI.empty hist) (h8 : (runReg OSI.empty hist).spaces.length ≤ 8) (hv : 'v' ∈ (runReg OSI.empty hist).spaces.map (·.label))
    (ho : 'o' ∈ (runReg OSI.empty hist).spaces.map (·.label)) (n : Nat) :
    makeT (runReg OSI.empty hist) (n + 1) = (clusterProgL ['t'] 1 ((List.range n).map (· + 2))).run (runReg OSI.empty hist) letters2 := by
  have e : (List.range (n + 1)).map (fun k => k + 1) = 1 :: (List.range n).map (· + 2) := by
    rw [List.range_succ_eq_map, List.map_cons, List.map_map]; rfl
  unfold makeT
  rw [make_congr _ _ _ (fun k => makeTText (k + 1)) (fun k => excitationText (k + 1)) (fun k => makeTText_reads _), show (List.range (n + 1)).map (fun k => excitationText (k + 1)) = ((List.range (n + 1)).map (fun k => k + 1)).map excitationText by rw [List.map_map]; rfl, e]
  refine make_clusterL ['t'] hist hok h8 hv ho 1 _ ?_ ?_ false
  · rw [← e]; exact (List.nodup_range).map (fun a b h => by simpa using h)
  · rw [← e]; intro k hk; obtain ⟨a, _, rfl⟩ := List.mem_map.1 hk; omega

section
variable {Ω R : Type} [Inhabited Ω] [Fintype Ω] [LinearOrder Ω] [CommRing R] [Algebra ℚ R]

theorem cc_equations_value (hist : List RegOp) (hok : allOk OSI.empty hist) {cfg : WickCfg} {n : Nat} :
    let o := runReg OSI.empty hist
    o.spaces.map (fun s => (s.label, s.spaceType)) = [('o', .occupied), ('v', .unoccupied)] → 1 ≤ n → n ≤ 6 →
    ∀ (tensor : Str → List Ω → List Ω → R) (hole : Ω → Bool),
    let occ : Finset Ω := Finset.univ.filter (fun x => hole x = true)
    let vir : Finset Ω := Finset.univ.filter (fun x => hole x = false)
    let v : OrbSystem Ω R (Module.End R (FockSpace Ω R)) := ⟨fun s => if s = 0 then occ else vir, tensor, fockOp R hole⟩
    v.Antisymmetric →
    let N := normalProd hole (fockOp R hole)
    let H := tensor "E_0".toList [] [] • 1 + manyBody (tensor ['f']) N 1 Finset.univ Finset.univ + manyBody (tensor ['v']) N 2 Finset.univ Finset.univ
    let T := ((List.range n).map (fun k => manyBody (tensor ['t']) N (k + 1) vir occ)).sum
    ∃ Hx Tx e m, ccHamiltonian o = .ok Hx ∧ makeT o n = .ok Tx ∧ contractExpr o cfg (Rational.ofInt 1) (OpExpr.bchSeries Hx Tx 4) 0 (2 * n) = .ok e ∧ e.toManybody o ['r'] = .ok m ∧ IsNilpotent T ∧
      ∀ a b : Nat, a + b ≤ 2 * n → ∀ u l : List Ω, u.length = a → l.length = b → (∀ x ∈ u, hole x = true) → (∀ x ∈ l, hole x = false) →
        antisymmetrizer 0 a (antisymmetrizer a b (equationsElement v (equationsOf m (List.replicate a 'o' ++ '|' :: List.replicate b 'v')))) (u ++ l) =
          fockExpectation R (bra (fockOp R hole) u l * (IsNilpotent.exp (-T) * H * IsNilpotent.exp T)) := by
  intro o ho h1 h6 tensor hole occ vir v hv N H T
  have hR := goodReg hist hok
  have hlen : o.spaces.length = 2 := by rw [← List.length_map (f := fun s : OrbitalSpace => (s.label, s.spaceType)), ho]; rfl
  have hlab : o.spaces.map (·.label) = ['o', 'v'] := by
    have : o.spaces.map (·.label) = (o.spaces.map (fun s => (s.label, s.spaceType))).map Prod.fst := by rw [List.map_map]; rfl
    rw [this, ho]; rfl
  have hmo : 'o' ∈ o.spaces.map (·.label) := by rw [hlab]; decide
  have hmv : 'v' ∈ o.spaces.map (·.label) := by rw [hlab]; decide
  have hal : ∀ s ∈ o.spaces, isAlpha s.label = true := by
    intro s hs
    have := List.mem_map_of_mem (f := (·.label)) hs
    rw [hlab] at this
    revert this
    generalize s.label = c
    revert c
    decide
  obtain ⟨n, rfl⟩ : ∃ k, n = k + 1 := ⟨n - 1, by omega⟩
  have e1 : (List.range (n + 1)).map (fun k => k + 1) = 1 :: (List.range n).map (· + 2) := by
    rw [List.range_succ_eq_map, List.map_cons, List.map_map]; rfl
  obtain ⟨c1, c2, c3, c4, c5⟩ := cluster_factsL ['t'] ho ((List.range n).map (· + 2)) 1 (by
    rw [← e1]
    intro k hk
    obtain ⟨a, ha, rfl⟩ := List.mem_map.1 hk
    have := List.mem_range.1 ha
    omega)
  obtain ⟨hn, hvac⟩ := names_notebook (R := R) ho hR tensor hole
  have hvv : (⟨fun s => Finset.univ.filter (fun x => hole x = decide (s = 0)), tensor, fockOp R hole⟩ : OrbSystem Ω R (Module.End R (FockSpace Ω R))) = v := by
    simp only [v]
    congr 1
    funext s
    by_cases h : s = 0 <;> simp [h, occ, vir]
  rw [hvv] at hn hvac
  have h8 : o.spaces.length ≤ 8 := by omega
  obtain ⟨Hx, Tx, e, eH, eT, hin, he, hcard, htens, vH, vT⟩ := cc_program_labels (Lab := fun lab => lab ∈ ["E_0".toList, ['f'], ['v'], ['t']]) (by decide) (cfg := cfg) (Hp := ccHamProg) (Tp := clusterProgL ['t'] 1 ((List.range n).map (· + 2))) (ord := 4)
    hist hok 0 (2 * (n + 1 : Nat)) h8 ⟨⟨trivial, trivial⟩, trivial⟩ c1 (by decide) c2
    (by intro lab hl
        rcases List.mem_append.1 hl with hl | hl
        · exact (by decide : ∀ lab ∈ ccHamProg.labels, lab ∈ ["E_0".toList, ['f'], ['v'], ['t']]) lab hl
        · rw [c3 lab hl]; decide)
    (by show ccHamProg.numOps + 4 * _ ≤ 52
        have : ccHamProg.numOps = 4 := by decide
        omega)
    (by show ccHamProg.perSpace letters2 + 4 * _ ≤ 32
        have : ccHamProg.perSpace letters2 = 4 := by decide
        omega) v hole hn hv (fock_car hole) hvac
  have vH' : v.exprValue hole o.spaces.length Hx = H := by
    rw [vH]
    show manyBody (tensor "E_0".toList) N 0 Finset.univ Finset.univ + _ + _ = _
    have : manyBody (tensor "E_0".toList) N 0 Finset.univ Finset.univ = tensor "E_0".toList [] [] • 1 := by
      unfold manyBody
      simp [N, normalProd, normalSign]
    rw [this]
    rfl
  have vT' : v.exprValue hole o.spaces.length Tx = T := by
    rw [vT, cluster_meaningL, ← e1, List.map_map]
    have e1 : (if (2 : Fin 3) = 0 then Finset.univ else Finset.univ.filter (fun x => hole x = decide ((2 : Fin 3) = 1))) = vir := by simp [vir]
    have e2 : (if (1 : Fin 3) = 0 then Finset.univ else Finset.univ.filter (fun x => hole x = decide ((1 : Fin 3) = 1))) = occ := by simp [occ]
    rw [e1, e2]
    rfl
  let dom : Char → Finset Ω := fun c => if c = 'o' then occ else vir
  have hdom : ∀ (n : Nat) s, o.spaces[n]? = some s → dom s.label = v.dom n := by
    intro n s hs
    have h1 : (o.spaces.map (·.label))[n]? = some s.label := by rw [List.getElem?_map, hs]; rfl
    rw [hlab] at h1
    match n with
    | 0 => simp at h1; simp [dom, v, ← h1]
    | 1 => simp at h1; simp [dom, v, ← h1]
    | n + 2 => simp at h1
  obtain ⟨hE, h3⟩ := ccInput_bch hin 4
  have hNN : ((ccHamProg.numOps : Nat) : Int) ≤ ((4 : Nat) : Int) := by decide
  obtain ⟨hnil, hval⟩ := C85_similarity (R := R) h8 (fock_car hole) hvac hin.builtH hin.builtT hin.size hin.validH hin.neT hin.excT hNN
  obtain ⟨m, hm, h⟩ := C84_equations_partial (label := ['r']) hist hal (List.mem_map.1 hmo) (List.mem_map.1 hmv) h8 hE (canon_ofInt 1) he hcard h3 v dom hole (fockExpectation R) hv (fock_car hole) hvac (fock_expectation hole) hdom
  have hone : toRat (Rational.ofInt 1) = 1 := by norm_num [toRat, Rational.ofInt]
  simp only [hone, one_smul] at h
  refine ⟨Hx, Tx, e, m, (ccHam_run o).trans eH, (makeT_run hist hok h8 hmv hmo n).trans eT, he, hm, by rw [← vT']; exact hnil, fun a b hab u l hu hl hhu hhl => ?_⟩
  have := h a b (by omega) (by push_cast; omega) u l hu hl (fun x hx => ⟨by simp [dom, occ, hhu x hx], hhu x hx⟩) (fun x hx => ⟨by simp [dom, vir, hhl x hx], hhl x hx⟩)
  rw [← this, ← vH', ← vT', ← hval]
  rfl
end

/-- tensors for which no equations of CoupledClusterEquations.ipynb vanish: `f` counts the electrons in the unoccupied orbitals -/
def tensorF (r : Nat) (lab : Str) (l u : List (Fin (2 * r))) : ℚ := if lab = ['f'] then tensorCount r ['H'] l u else if lab = ['t'] then tensorCount r ['T'] l u else 0

/-- tensors for which the energy is not zero -/
def tensorE (lab : Str) (l u : List (Fin 2)) : ℚ := if lab = "E_0".toList ∧ l = [] ∧ u = [] then 1 else 0

theorem tensorF_anti {A : Type} (dom : Int → Finset (Fin (2 * r))) (op : SQType → Fin (2 * r) → A) : (⟨dom, tensorF r, op⟩ : OrbSystem (Fin (2 * r)) ℚ A).Antisymmetric := by
  have h := tensorCount_anti dom op
  intro lab
  refine ⟨fun pre a b post u => ?_, fun l pre a b post => ?_⟩
  · show tensorF r lab _ _ = - tensorF r lab _ _
    unfold tensorF
    split
    · exact (h ['H']).1 pre a b post u
    · split
      · exact (h ['T']).1 pre a b post u
      · simp
  · show tensorF r lab _ _ = - tensorF r lab _ _
    unfold tensorF
    split
    · exact (h ['H']).2 l pre a b post
    · split
      · exact (h ['T']).2 l pre a b post
      · simp

theorem tensorE_anti {A : Type} (dom : Int → Finset (Fin 2)) (op : SQType → Fin 2 → A) : (⟨dom, tensorE, op⟩ : OrbSystem (Fin 2) ℚ A).Antisymmetric := by
  intro lab
  refine ⟨fun pre a b post u => ?_, fun l pre a b post => ?_⟩ <;> simp [tensorE]

theorem find_of_equations {m : List (Str × List Equation)} {key : Str} (h : equationsOf m key ≠ []) : ∃ q, m.find? (fun q => decide (q.1 = key)) = some q ∧ equationsOf m key = q.2 := by
  unfold equationsOf at h ⊢
  cases hf : m.find? (fun q => decide (q.1 = key)) with
  | none => rw [hf] at h; exact absurd rfl h
  | some q => exact ⟨q, rfl, rfl⟩

theorem mapM_ok {α β : Type} (f : α → Except Fault β) (g : α → β) (l : List α) (h : ∀ a ∈ l, f a = .ok (g a)) : l.mapM f = .ok (l.map g) := by
  induction l with
  | nil => rfl
  | cons a l ih =>
    rw [List.mapM_cons, h a (by simp), ih (fun b hb => h b (by simp [hb]))]
    rfl

/-- **C101**: for `n` from one to six, `cc_equations(n)` of CoupledClusterEquations.ipynb returns; it returns a non-empty list of equations for every rank `r` from zero to `n`; and for all tensors, orbitals and determinants with `r`
electrons excited, the equations of rank `r`, antisymmetrised, give `⟨excited determinant| exp(-T) (E_0 + f + v) exp(T) |reference⟩` in Fock space, exactly. -/
theorem C101_notebook (hist : List RegOp) (hok : allOk OSI.empty hist) {cfg : WickCfg} {n : Nat} :
    let o := runReg OSI.empty hist
    o.spaces.map (fun s => (s.label, s.spaceType)) = [('o', .occupied), ('v', .unoccupied)] → 1 ≤ n → n ≤ 6 →
    ∃ eqs, ccEquations o cfg n = .ok eqs ∧ eqs.map Prod.fst = List.range (n + 1) ∧ (∀ q ∈ eqs, q.2 ≠ []) ∧
    ∀ (Ω R : Type) [Inhabited Ω] [Fintype Ω] [LinearOrder Ω] [CommRing R] [Algebra ℚ R] (tensor : Str → List Ω → List Ω → R) (hole : Ω → Bool),
    let occ : Finset Ω := Finset.univ.filter (fun x => hole x = true)
    let vir : Finset Ω := Finset.univ.filter (fun x => hole x = false)
    let v : OrbSystem Ω R (Module.End R (FockSpace Ω R)) := ⟨fun s => if s = 0 then occ else vir, tensor, fockOp R hole⟩
    v.Antisymmetric →
    let N := normalProd hole (fockOp R hole)
    let H := tensor "E_0".toList [] [] • 1 + manyBody (tensor ['f']) N 1 Finset.univ Finset.univ + manyBody (tensor ['v']) N 2 Finset.univ Finset.univ
    let T := ((List.range n).map (fun k => manyBody (tensor ['t']) N (k + 1) vir occ)).sum
    ∀ q ∈ eqs, ∀ u l : List Ω, u.length = q.1 → l.length = q.1 → (∀ x ∈ u, hole x = true) → (∀ x ∈ l, hole x = false) →
      antisymmetrizer 0 q.1 (antisymmetrizer q.1 q.1 (equationsElement v q.2)) (u ++ l) =
        fockExpectation R (bra (fockOp R hole) u l * (IsNilpotent.exp (-T) * H * IsNilpotent.exp T)) := by
  intro o ho h1 h6
  -- the energy
  obtain ⟨Hx, Tx, e, m, hH, hT, he, hm, _, h0⟩ := cc_equations_value (R := ℚ) (Ω := Fin 2) (cfg := cfg) hist hok ho h1 h6 tensorE (fun _ => true) (tensorE_anti _ _)
  have key0 : equationsOf m (ccKey 0) ≠ [] := by
    intro h
    have h0 := h0 0 0 (by omega) [] [] rfl rfl (by simp) (by simp)
    have hz : ∀ lab k (C A : Finset (Fin 2)), lab ≠ "E_0".toList → manyBody (tensorE lab) (normalProd (fun _ : Fin 2 => true) (fockOp ℚ (fun _ => true))) k C A = 0 := by
      intro lab k C A hl
      exact manyBody_zero _ _ _ (fun l u _ => if_neg (fun h => hl h.1))
    have hk : equationsOf m (List.replicate 0 'o' ++ '|' :: List.replicate 0 'v') = [] := h
    have hb : bra (fockOp ℚ (fun _ : Fin 2 => true)) [] [] = 1 := by simp [bra]
    have hTz : ((List.range n).map (fun k => manyBody (tensorE ['t']) (normalProd (fun _ : Fin 2 => true) (fockOp ℚ (fun _ => true))) (k + 1) (Finset.univ.filter (fun x => (fun _ : Fin 2 => true) x = false))
        (Finset.univ.filter (fun x => (fun _ : Fin 2 => true) x = true)))).sum = 0 := by
      rw [List.sum_eq_zero]
      intro x hx
      obtain ⟨k, _, rfl⟩ := List.mem_map.1 hx
      exact hz _ _ _ _ (by decide)
    rw [hk, hb, hz ['f'] _ _ _ (by decide), hz ['v'] _ _ _ (by decide), hTz] at h0
    simp only [neg_zero, IsNilpotent.exp_zero, one_mul, mul_one, add_zero] at h0
    rw [show tensorE "E_0".toList [] [] = 1 from rfl, one_smul, (fock_expectation (R := ℚ) (fun _ : Fin 2 => true)).one] at h0
    simp [antisymmetrizer, equationsElement] at h0
  -- the residuals
  have keyr : ∀ r, 1 ≤ r → r ≤ n → equationsOf m (ccKey r) ≠ [] := by
    intro r hr1 hrn h
    have inh : Inhabited (Fin (2 * r)) := ⟨⟨0, by omega⟩⟩
    obtain ⟨Hx', Tx', e', m', hH', hT', he', hm', _, h0⟩ := cc_equations_value (R := ℚ) (Ω := Fin (2 * r)) (cfg := cfg) hist hok ho h1 h6 (tensorF r) (holeHalf r) (tensorF_anti _ _)
    rw [hH] at hH'; cases hH'
    rw [hT] at hT'; cases hT'
    rw [he] at he'; cases he'
    rw [hm] at hm'; cases hm'
    obtain ⟨o1, o2, o3⟩ := occList_facts r
    obtain ⟨v1, v2, v3⟩ := virList_facts r
    have h0 := h0 r r (by omega) (occList r) (virList r) o1 v1 o3 v3
    have hk : equationsOf m (List.replicate r 'o' ++ '|' :: List.replicate r 'v') = [] := h
    have hV : ∀ x, x ∈ Finset.univ.filter (fun x => holeHalf r x = false) ↔ holeHalf r x = false := by simp
    have hO : ∀ x, x ∈ Finset.univ.filter (fun x => holeHalf r x = true) ↔ holeHalf r x = true := by simp
    have ft : tensorF r ['t'] = fun l u => vdmR r l * vdmR r u := by
      funext l u
      unfold tensorF tensorCount
      rw [if_neg (by decide), if_pos rfl, if_neg (by decide)]
    have ff : tensorF r ['f'] = tensorCount r ['H'] := by
      funext l u
      unfold tensorF
      rw [if_pos rfl]
    have fv : tensorF r ['v'] = fun _ _ => 0 := by
      funext l u
      unfold tensorF
      rw [if_neg (by decide), if_neg (by decide)]
    have fE : tensorF r "E_0".toList [] [] = 0 := by
      unfold tensorF
      rw [if_neg (by decide), if_neg (by decide)]
    have hc := count_hamiltonian r
    rw [manyBody_zero (n := 2) _ _ _ (fun l u hl => by unfold tensorCount; rw [if_pos rfl, if_neg (by rintro ⟨h, _⟩; omega)]), add_zero] at hc
    have hv0 : manyBody (fun _ _ => (0 : ℚ)) (normalProd (holeHalf r) (fockOp ℚ (holeHalf r))) 2 Finset.univ Finset.univ = 0 := manyBody_zero _ _ _ (fun _ _ _ => rfl)
    have hTs : ((List.range n).map (fun k => manyBody (fun l u => vdmR r l * vdmR r u) (normalProd (holeHalf r) (fockOp ℚ (holeHalf r))) (k + 1) (Finset.univ.filter (fun x => holeHalf r x = false))
        (Finset.univ.filter (fun x => holeHalf r x = true)))).sum = manyBody (fun l u => vdmR r l * vdmR r u) (normalProd (holeHalf r) (fockOp ℚ (holeHalf r))) r (Finset.univ.filter (fun x => holeHalf r x = false))
        (Finset.univ.filter (fun x => holeHalf r x = true)) := by
      have := sum_single (fun k => manyBody (fun l u => vdmR r l * vdmR r u) (normalProd (holeHalf r) (fockOp ℚ (holeHalf r))) (k + 1) (Finset.univ.filter (fun x => holeHalf r x = false))
        (Finset.univ.filter (fun x => holeHalf r x = true))) (r - 1) (List.range n) (List.mem_range.2 (by omega)) List.nodup_range (fun k _ hk => manyBody_zero _ _ _ (fun l u hl => by
          unfold vdmR
          rw [if_neg (by rw [hl]; omega), zero_mul]))
      rw [this, show r - 1 + 1 = r by omega]
    rw [hk, ft, ff, fv, fE, zero_smul, zero_add, hc, hv0, add_zero, hTs] at h0
    have hT2 := cluster_sq hr1 hV hO (fun l u => vdmR r l * vdmR r u)
    have key := residual_of_counter (fock_car (R := ℚ) (holeHalf r)) (fock_expectation (holeHalf r)) hV hO (vdmR_anti r) (vdmR_anti r) o3 v3 (v1.trans o1.symm) (by rw [o1]) ⟨2, by rw [pow_two]; exact hT2⟩
    rw [key, o1] at h0
    have hr0 : (r : ℚ) ≠ 0 := by
      have : r ≠ 0 := by omega
      exact_mod_cast this
    refine mul_ne_zero hr0 (mul_ne_zero (vdmR_ne v1 v2) (vdmR_ne o1 o2)) (h0.symm.trans ?_)
    simp [antisymmetrizer, equationsElement]
  have hkey : ∀ r ∈ List.range (n + 1), ∃ q, m.find? (fun q => decide (q.1 = ccKey r)) = some q ∧ equationsOf m (ccKey r) = q.2 := by
    intro r hr
    have := List.mem_range.1 hr
    rcases Nat.eq_zero_or_pos r with rfl | hp
    · exact find_of_equations key0
    · exact find_of_equations (keyr r hp (by omega))
  refine ⟨(List.range (n + 1)).map (fun r => (r, equationsOf m (ccKey r))), ?_, ?_, ?_, ?_⟩
  · have : (List.range (n + 1)).mapM (m := Except Fault) (fun r => match m.find? (fun q => decide (q.1 = ccKey r)) with | some q => .ok (r, q.2) | none => .error .throw) =
        .ok ((List.range (n + 1)).map (fun r => (r, equationsOf m (ccKey r)))) := by
      refine mapM_ok _ _ _ (fun r hr => ?_)
      obtain ⟨q, hq, e⟩ := hkey r hr
      rw [hq, e]
    unfold ccEquations
    rw [hH, hT]
    show (contractExpr o cfg (Rational.ofInt 1) (OpExpr.bchSeries Hx Tx 4) 0 (2 * n) >>= _) = _
    rw [he]
    show (e.toManybody o ['r'] >>= _) = _
    rw [hm]
    exact this
  · rw [List.map_map]
    exact List.map_id _
  · intro q hq
    obtain ⟨r, hr, rfl⟩ := List.mem_map.1 hq
    have := List.mem_range.1 hr
    rcases Nat.eq_zero_or_pos r with rfl | hp
    · exact key0
    · exact keyr r hp (by omega)
  · intro Ω R _ _ _ _ _ tensor hole occ vir v hv N H T q hq u l hu hl hhu hhl
    obtain ⟨r, hr, rfl⟩ := List.mem_map.1 hq
    have := List.mem_range.1 hr
    obtain ⟨Hx', Tx', e', m', hH', hT', he', hm', _, h0⟩ := cc_equations_value (cfg := cfg) hist hok ho h1 h6 tensor hole hv
    rw [hH] at hH'; cases hH'
    rw [hT] at hT'; cases hT'
    rw [he] at he'; cases he'
    rw [hm] at hm'; cases hm'
    exact h0 r r (by omega) u l hu hl hhu hhl

-- the hypotheses hold for the registry of the notebook, up to quintuple excitations as in the notebook
example : ∃ eqs, ccEquations (runReg OSI.empty srHistory) {} 5 = .ok eqs ∧ eqs.map Prod.fst = [0, 1, 2, 3, 4, 5] ∧ ∀ q ∈ eqs, q.2 ≠ [] := by
  obtain ⟨eqs, h1, h2, h3, _⟩ := C101_notebook srHistory (by refine ⟨?_, ?_, trivial⟩ <;> decide +kernel) (cfg := {}) (n := 5) (by decide +kernel) (by decide) (by decide)
  exact ⟨eqs, h1, h2, h3⟩

end Wick
end Wicked
