import Verif.Props.SpinResidual
import Verif.Proofs.FockSpace
/-! # C86: solutions of the generated equations of full rank are eigenstates -/
namespace Wicked
open CppLt CppEq Rational Lin

theorem forall₂_flatMap {α β γ : Type} {r : β → γ → Prop} {f : α → List β} {g : α → List γ} : ∀ {L : List α}, (∀ p ∈ L, List.Forall₂ r (f p) (g p)) → List.Forall₂ r (L.flatMap f) (L.flatMap g)
  | [], _ => .nil
  | p :: L, h => by
    rw [List.flatMap_cons, List.flatMap_cons]
    exact List.rel_append (h p (by simp)) (forall₂_flatMap (fun q hq => h q (by simp [hq])))

theorem forall₂_replicate {β γ : Type} {r : β → γ → Prop} {c : γ} : ∀ {l : List β} {n : Nat}, l.length = n → (∀ x ∈ l, r x c) → List.Forall₂ r l (List.replicate n c)
  | [], _, rfl, _ => .nil
  | x :: l, _, rfl, h => .cons (h x (by simp)) (forall₂_replicate rfl (fun y hy => h y (by simp [hy])))

namespace Wick
section
variable {Ω R A : Type} [Inhabited Ω] [DecidableEq Ω] [CommRing R] [Ring A] [Algebra R A]

/-- the orbitals of `S` that are occupied (`b = true`) or unoccupied in the vacuum, space by space -/
noncomputable def wordOf (o : OSI) (v : OrbSystem Ω R A) (hole : Ω → Bool) (b : Bool) (S : Finset Ω) : List Ω :=
  o.spaces.zipIdx.flatMap (fun p => ((S ∩ v.dom p.2).filter (fun x => hole x = b)).toList)

theorem wordOf_mem {o : OSI} {v : OrbSystem Ω R A} {hole : Ω → Bool} (hcov : ∀ x, ∃ s : Nat, s < o.spaces.length ∧ x ∈ v.dom s) {b : Bool} {S : Finset Ω} {x : Ω} :
    x ∈ wordOf o v hole b S ↔ x ∈ S ∧ hole x = b := by
  unfold wordOf
  rw [List.mem_flatMap]
  constructor
  · rintro ⟨p, _, hx⟩
    simp only [Finset.mem_toList, Finset.mem_filter, Finset.mem_inter] at hx
    exact ⟨hx.1.1, hx.2⟩
  · rintro ⟨hx, hb⟩
    obtain ⟨s, hs, hd⟩ := hcov x
    refine ⟨(o.spaces[s], s), ?_, by simp [hx, hb, hd]⟩
    rw [List.mk_mem_zipIdx_iff_getElem?, List.getElem?_eq_getElem hs]

theorem wordOf_nodup {o : OSI} {v : OrbSystem Ω R A} {hole : Ω → Bool} (hvac : v.Vacuum o hole) {b : Bool} {S : Finset Ω} : (wordOf o v hole b S).Nodup := by
  unfold wordOf
  rw [List.nodup_flatMap]
  refine ⟨fun p _ => Finset.nodup_toList _, ?_⟩
  rw [List.pairwise_iff_getElem]
  intro i j hi hj hij x hx hy
  rw [List.length_zipIdx] at hi hj
  simp only [List.getElem_zipIdx, Nat.zero_add, Finset.mem_toList, Finset.mem_filter, Finset.mem_inter] at hx hy
  exact hvac.disjoint i j hi hj (by omega) x hx.1.2 hy.1.2

theorem wordOf_spaces {o : OSI} {v : OrbSystem Ω R A} {hole : Ω → Bool} {dom : Char → Finset Ω} (hdom : ∀ (n : Nat) s, o.spaces[n]? = some s → dom s.label = v.dom n) (b : Bool) (S : Finset Ω) :
    List.Forall₂ (· ∈ ·) (wordOf o v hole b S) ((repeatLabels o (fun s => ((S ∩ v.dom s).filter (fun x => hole x = b)).card)).map dom) := by
  unfold wordOf repeatLabels
  rw [List.map_flatMap]
  apply forall₂_flatMap
  intro p hp
  rw [List.map_replicate]
  apply forall₂_replicate (Finset.length_toList _)
  intro x hx
  simp only [Finset.mem_toList, Finset.mem_filter, Finset.mem_inter] at hx
  rw [hdom p.2 p.1 (List.mem_zipIdx_iff_getElem?.1 hp)]
  exact hx.1.2
end

section
variable {Ω R : Type} [Inhabited Ω] [LinearOrder Ω] [CommRing R] [Algebra ℚ R]

theorem repeatLabels_zero (o : OSI) : repeatLabels o (fun _ => 0) = [] := by
  unfold repeatLabels
  rw [List.flatMap_eq_nil_iff]
  intro p _
  rfl

/-- **C86.** Full coupled cluster is exact. The second-quantized operators act on the Fock space of the registered orbitals, `H` is a linear combination of products of one- and two-body operators,
`T` of products of excitation operators; `bch_series(H, T, n)` is contracted in a window of ranks that holds all determinants, the many-body equations are compiled to functions. Let `E` be the number
that the energy function returns (zero if there is no such equation). The antisymmetrised residuals vanish for all occupied orbitals `u` and unoccupied orbitals `l` if and only if the state `exp(T)|vacuum⟩` is an eigenstate of `H` with the eigenvalue `E`.
Missing: coefficients that are no multiples of `10^-9`, and Hamiltonians with more than two-body operators. -/
theorem C86_exact_partial (hist : List RegOp) {fmt : Rational → Str} {cfg : WickCfg} {H T : OpExpr} {N : Nat} {ord : Int} {minr maxr : Int} {e : Expr} :
    let o := runReg OSI.empty hist
    (∀ s ∈ o.spaces, ∀ name ∈ s.indices, ∀ (c : Char) (n : Int), name ≠ c :: '_' :: '{' :: (intStr n ++ ['}'])) →
    (∀ s ∈ o.spaces, isAlpha s.label = true) → PrintsNine fmt →
    o.spaces.length ≤ 8 → CCInput o H T N → (N : Int) ≤ ord → minr ≤ 0 → (∀ S : Finset Ω, (S.card : Int) ≤ maxr) →
    contractExpr o cfg (Rational.ofInt 1) (OpExpr.bchSeries H T ord) minr maxr = .ok e → (∀ p ∈ e, p.1.allIdx.toFinset.card ≤ 52 ∧ p.2.den ∣ 10 ^ 9) →
    (∀ p ∈ e, ∀ y ∈ p.1.tensors, y.label = ['H'] ∨ y.label = ['T']) →
    ∀ (v : OrbSystem Ω R (Module.End R (FockSpace Ω R))) (arr : Str → Str → List Ω → R) (dom : Char → Finset Ω) (hole : Ω → Bool), v.Antisymmetric → v.op = fockOp R hole → v.Vacuum o hole →
    (∀ x, ∃ s : Nat, s < o.spaces.length ∧ x ∈ v.dom s) →
    (∀ p ∈ e, ∀ y ∈ p.1.tensors, ∀ l u, l.length = y.lower.length → u.length = y.upper.length → arr y.label (spaceText o y) (u ++ l) = v.T y.label l u) →
    (∀ (n : Nat) s, o.spaces[n]? = some s → dom s.label = v.dom n) →
    ∃ m, e.toManybody o ['R'] = .ok m ∧ ∃ E : R,
      ((∃ text r, generateEquationSpace o fmt m 0 0 ['|'] = .ok text ∧ ReturnsArray arr dom text "evaluate_residual_".toList none r ∧ r [] = E) ∨
        (generateEquationSpace o fmt m 0 0 ['|'] = .error .throw ∧ E = 0)) ∧
      ((∀ (n k : Nat → Nat) (u l : List Ω), ¬ (u = [] ∧ l = []) → List.Forall₂ (· ∈ ·) u ((repeatLabels o n).map dom) → List.Forall₂ (· ∈ ·) l ((repeatLabels o k).map dom) →
          (∀ x ∈ u, hole x = true) → (∀ x ∈ l, hole x = false) → (u.length : Int) + l.length ≤ maxr →
          ∀ text r, generateEquationSpace o fmt m u.length l.length (spaceKey o n k) = .ok text →
          ReturnsArray arr dom text ("evaluate_residual_".toList ++ (repeatLabels o n ++ repeatLabels o k)) (some (List.replicate u.length "nocc".toList ++ List.replicate l.length "nvir".toList)) r →
          antisymmetrized (repeatLabels o n) (repeatLabels o k) r u l = 0) ↔
        v.exprValue hole o.spaces.length H (IsNilpotent.exp (v.exprValue hole o.spaces.length T) (fockVacuum R)) = E • IsNilpotent.exp (v.exprValue hole o.spaces.length T) (fockVacuum R)) := by
  intro o hgen hal hfmt h8 hin hN hmin hmax hc hb hHT v arr dom hole hv hop hvac hcov harr hdom
  have hcar : IsCAR v.op := by rw [hop]; exact fock_car hole
  have hφ : IsVacuumExpectation v.op hole (fockExpectation R) := by rw [hop]; exact fock_expectation hole
  obtain ⟨m, hm, h⟩ := C85_residual_space_partial hist hgen hal hfmt h8 hin hN hc hb hHT v arr dom hole (fockExpectation R) hv hcar hvac hφ harr hdom
  have hnil := (C85_similarity (R := R) h8 hcar hvac hin.builtH hin.builtT hin.size hin.validH hin.neT hin.excT (le_refl (N : Int))).1
  generalize v.exprValue hole o.spaces.length T = t at h hnil ⊢
  generalize v.exprValue hole o.spaces.length H = h0 at h ⊢
  have hexp : IsNilpotent.exp t * (IsNilpotent.exp (-t) * h0 * IsNilpotent.exp t) = h0 * IsNilpotent.exp t := by
    rw [← mul_assoc, ← mul_assoc, IsNilpotent.exp_mul_exp_neg_self hnil, one_mul]
  have hexp' : IsNilpotent.exp (-t) * (IsNilpotent.exp t) = 1 := IsNilpotent.exp_neg_mul_exp_self hnil
  have hinv : ∀ y : FockSpace Ω R, (IsNilpotent.exp (-t) : Module.End R (FockSpace Ω R)) (IsNilpotent.exp t y) = y := by
    intro y
    rw [← Module.End.mul_apply, hexp']; rfl
  generalize hW : IsNilpotent.exp (-t) * h0 * IsNilpotent.exp t = W at h hexp
  refine ⟨m, hm, W (fockVacuum R) ∅, ?_, ?_⟩
  · have hz := h (fun _ => 0) (fun _ => 0) 0 0 (by rw [repeatLabels_zero]; rfl) (by rw [repeatLabels_zero]; rfl) (by simpa using hmin) (by simpa using hmax ∅)
    have hkey : spaceKey o (fun _ => 0) (fun _ => 0) = ['|'] := by rw [spaceKey, repeatLabels_zero]; rfl
    rw [hkey, repeatLabels_zero] at hz
    have hφW : fockExpectation R (bra v.op [] [] * W) = W (fockVacuum R) ∅ := by
      rw [show bra v.op [] [] = 1 by simp [bra], one_mul]; rfl
    rcases hz with ⟨text, r, hg, hr, hz⟩ | ⟨hg, hz⟩
    · left
      refine ⟨text, r, hg, hr, ?_⟩
      have := hz [] [] .nil .nil (by simp) (by simp)
      rw [C84_scalar, hφW] at this
      exact this.symm
    · right
      refine ⟨hg, ?_⟩
      have := hz [] [] .nil .nil (by simp) (by simp)
      rw [hφW] at this
      exact this
  have heig : h0 (IsNilpotent.exp t (fockVacuum R)) = W (fockVacuum R) ∅ • IsNilpotent.exp t (fockVacuum R) ↔ W (fockVacuum R) = W (fockVacuum R) ∅ • fockVacuum R := by
    have e1 : h0 (IsNilpotent.exp t (fockVacuum R)) = IsNilpotent.exp t (W (fockVacuum R)) := by
      rw [← Module.End.mul_apply, ← hexp, Module.End.mul_apply]
    constructor
    · intro h
      rw [e1, ← map_smul] at h
      have := congrArg (fun x => (IsNilpotent.exp (-t) : Module.End R (FockSpace Ω R)) x) h
      rw [hinv, hinv] at this
      exact this
    · intro h
      rw [e1]
      conv_lhs => rw [h]
      rw [map_smul]
  rw [heig]
  have hlen : ∀ {n : Nat → Nat} {u : List Ω}, List.Forall₂ (· ∈ ·) u ((repeatLabels o n).map dom) → u.length = (repeatLabels o n).length := by
    intro n u hu
    have := hu.length_eq
    rwa [List.length_map] at this
  constructor
  · intro hres
    apply eq_vacuum
    intro S hS
    have hu := wordOf_spaces (hole := hole) hdom true S
    have hl := wordOf_spaces (hole := hole) hdom false S
    have hhu : ∀ x ∈ wordOf o v hole true S, hole x = true := fun x hx => ((wordOf_mem hcov).1 hx).2
    have hhl : ∀ x ∈ wordOf o v hole false S, hole x = false := fun x hx => ((wordOf_mem hcov).1 hx).2
    have hset : (wordOf o v hole true S).toFinset ∪ (wordOf o v hole false S).toFinset = S := by
      ext x
      rw [Finset.mem_union, List.mem_toFinset, List.mem_toFinset, wordOf_mem hcov, wordOf_mem hcov]
      cases hole x <;> simp
    have hnu : (wordOf o v hole true S).Nodup := wordOf_nodup hvac
    have hnl : (wordOf o v hole false S).Nodup := wordOf_nodup hvac
    have hcard : (wordOf o v hole true S).length + (wordOf o v hole false S).length = S.card := by
      rw [← List.toFinset_card_of_nodup hnu, ← List.toFinset_card_of_nodup hnl]
      conv_rhs => rw [← hset]
      rw [Finset.card_union_of_disjoint]
      rw [Finset.disjoint_left]
      intro x hx hy
      rw [List.mem_toFinset] at hx hy
      have h1 := hhu x hx
      rw [hhl x hy] at h1
      cases h1
    have hmaxS := hmax S
    obtain ⟨ε, hε, hbra⟩ := expectation_bra (R := R) hhu hhl hnu hnl
    have hne : ¬ (wordOf o v hole true S = [] ∧ wordOf o v hole false S = []) := by
      rintro ⟨e1, e2⟩
      rw [e1, e2] at hset
      exact hS (by rw [← hset]; rfl)
    have hzero : fockExpectation R (bra v.op (wordOf o v hole true S) (wordOf o v hole false S) * W) = 0 := by
      rcases h _ _ _ _ (hlen hu) (hlen hl) (by omega) (by omega) with ⟨text, r, hg, hr, hz⟩ | ⟨hg, hz⟩
      · rw [if_neg (by
          intro h0
          exact hne ⟨List.length_eq_zero_iff.1 (by omega), List.length_eq_zero_iff.1 (by omega)⟩)] at hr
        rw [hz _ _ hu hl hhu hhl]
        exact hres _ _ _ _ hne hu hl hhu hhl (by omega) text r hg hr
      · exact hz _ _ hu hl hhu hhl
    rw [hop, hbra, hset] at hzero
    rcases hε with e | e <;> rw [e] at hzero
    · rwa [one_mul] at hzero
    · rwa [neg_one_mul, neg_eq_zero] at hzero
  · intro hWv n k u l hne hu hl hhu hhl hm2 text r hg hr
    rcases h n k _ _ (hlen hu) (hlen hl) (by omega) (by omega) with ⟨text', r', hg', hr', hz⟩ | ⟨hg', hz⟩
    · rw [hg] at hg'
      injection hg' with hg'
      subst hg'
      rw [if_neg (by
          intro h0
          exact hne ⟨List.length_eq_zero_iff.1 (by omega), List.length_eq_zero_iff.1 (by omega)⟩)] at hr'
      rw [returnsArray_unique hr hr', ← hz u l hu hl hhu hhl]
      show (bra v.op u l * W) (fockVacuum R) ∅ = 0
      rw [Module.End.mul_apply, hWv, map_smul, hop, bra_vacuum hhu hhl hne, smul_zero]
      rfl
    · rw [hg] at hg'; cases hg'
end

/-- the Fock space of two orbitals, with the tensors of `jwSys` -/
noncomputable def fockSys : OrbSystem Bool ℚ (Module.End ℚ (FockSpace Bool ℚ)) := ⟨jwSys.dom, jwSys.T, fockOp ℚ id⟩

-- all hypotheses hold together for one occupied and one virtual orbital, `H = H^v_o` and `T = T^o_v`: the function for the singles residual is generated, and if `exp(T)|vacuum⟩` is an eigenstate with the energy as eigenvalue it returns 0 at the only determinant
example : ∃ (e : Expr) (m : SMap Str (List Equation)) (E : ℚ) (r1 : List Bool → ℚ) (text1 : Str), contractExpr srReg {} (Rational.ofInt 1) (OpExpr.bchSeries ccH ccT 2) 0 2 = .ok e ∧ e.toManybody srReg ['R'] = .ok m ∧
    generateEquationSpace srReg (cutAt 9) m 1 1 "o|v".toList = .ok text1 ∧
    ReturnsArray (fun _ _ _ => (1 : ℚ)) (fun c => if c = 'o' then {true} else {false}) text1 "evaluate_residual_ov".toList (some ["nocc".toList, "nvir".toList]) r1 ∧
    (fockSys.exprValue id 2 ccH (IsNilpotent.exp (fockSys.exprValue id 2 ccT) (fockVacuum ℚ)) = E • IsNilpotent.exp (fockSys.exprValue id 2 ccT) (fockVacuum ℚ) → r1 [true, false] = 0) := by
  obtain ⟨e, he, h1⟩ := ok_of_check (x := contractExpr srReg {} (Rational.ofInt 1) (OpExpr.bchSeries ccH ccT 2) 0 2) (fun e =>
    decide ((∀ p ∈ e, p.1.allIdx.toFinset.card ≤ 52 ∧ p.2.den ∣ 10 ^ 9) ∧ (∀ p ∈ e, ∀ y ∈ p.1.tensors, y.lower.length ≤ 1 ∧ y.upper.length ≤ 1) ∧
      (∀ p ∈ e, ∀ y ∈ p.1.tensors, y.label = ['H'] ∨ y.label = ['T']) ∧
      ((Expr.toManybody srReg ['R'] e).bind (fun m => generateEquationSpace srReg (cutAt 9) m 1 1 "o|v".toList)).toOption.isSome = true)) (by decide +kernel)
  obtain ⟨hb, ht, hHT, hs1⟩ := of_decide_eq_true h1
  have hgen : ∀ s ∈ srReg.spaces, ∀ name ∈ s.indices, ∀ (c : Char) (n : Int), name ≠ c :: '_' :: '{' :: (intStr n ++ ['}']) := by
    intro s hs name hn
    have h0 : ∀ s ∈ srReg.spaces, s.indices = [] := by decide
    rw [h0 s hs] at hn
    cases hn
  have harr : ∀ p ∈ e, ∀ y ∈ p.1.tensors, ∀ (l u : List Bool), l.length = y.lower.length → u.length = y.upper.length → (1 : ℚ) = fockSys.T y.label l u := by
    intro p hp y hy l u hl hu
    have := ht p hp y hy
    show (1 : ℚ) = if l.length ≤ 1 ∧ u.length ≤ 1 then 1 else 0
    rw [if_pos ⟨by omega, by omega⟩]
  have hdom : ∀ (n : Nat) s, srReg.spaces[n]? = some s → (fun c => if c = 'o' then ({true} : Finset Bool) else {false}) s.label = fockSys.dom n := by
    intro n s hs
    match n with
    | 0 => cases hs; decide
    | 1 => cases hs; decide
    | n + 2 => cases hs
  have hvac : fockSys.Vacuum srReg id := ⟨srReg_vacuum.kind, srReg_vacuum.disjoint⟩
  have hanti : fockSys.Antisymmetric := jw_anti
  have hcov : ∀ x, ∃ s : Nat, s < srReg.spaces.length ∧ x ∈ fockSys.dom s := by
    intro x
    cases x
    · exact ⟨1, by decide, by show false ∈ jwSys.dom 1; decide⟩
    · exact ⟨0, by decide, by show true ∈ jwSys.dom 0; decide⟩
  obtain ⟨m, hm, E, _, hE⟩ := C86_exact_partial (Ω := Bool) (R := ℚ) srHistory (fmt := (cutAt 9)) (cfg := {}) (H := ccH) (T := ccT) (N := 2) (ord := 2) (minr := 0) (maxr := 2) (e := e)
    hgen (by decide) cut9_prints (by decide) cc_input (by decide) (by decide) (by decide) he hb hHT
    fockSys (fun _ _ _ => 1) (fun c => if c = 'o' then {true} else {false}) id hanti rfl hvac hcov harr hdom
  obtain ⟨m', hm', hres⟩ := C85_residual_space_partial (Ω := Bool) (R := ℚ) srHistory (fmt := (cutAt 9)) (cfg := {}) (H := ccH) (T := ccT) (N := 2) (ord := 2) (minr := 0) (maxr := 2) (e := e)
    hgen (by decide) cut9_prints (by decide) cc_input (by decide) he hb hHT
    fockSys (fun _ _ _ => 1) (fun c => if c = 'o' then {true} else {false}) id (fockExpectation ℚ) hanti (fock_car id) hvac (fock_expectation id) harr hdom
  rw [hm] at hm'
  injection hm' with hm'
  subst hm'
  rw [hm] at hs1
  have k1 : repeatLabels (runReg OSI.empty srHistory) (fun s => if s = 0 then 1 else 0) = ['o'] := by decide
  have k2 : repeatLabels (runReg OSI.empty srHistory) (fun s => if s = 1 then 1 else 0) = ['v'] := by decide
  have k3 : spaceKey (runReg OSI.empty srHistory) (fun s => if s = 0 then 1 else 0) (fun s => if s = 1 then 1 else 0) = "o|v".toList := by decide
  have hr := hres (fun s => if s = 0 then 1 else 0) (fun s => if s = 1 then 1 else 0) 1 1 (by decide) (by decide) (by decide) (by decide)
  rw [k1, k2, k3] at hr
  rcases hr with ⟨text1, r1, hg1, hr1, hp1⟩ | ⟨hg, _⟩
  swap
  · have : (generateEquationSpace srReg (cutAt 9) m 1 1 "o|v".toList).toOption.isSome = true := hs1
    rw [hg] at this
    cases this
  refine ⟨e, m, E, r1, text1, he, hm, hg1, hr1, ?_⟩
  intro heig
  have h := hE.2 heig (fun s => if s = 0 then 1 else 0) (fun s => if s = 1 then 1 else 0) [true] [false] (by simp)
  rw [k1, k2, k3] at h
  rw [← C84_one_one 'o' 'v' r1 true false]
  exact h (.cons (by decide) .nil) (.cons (by decide) .nil) (by simp) (by simp) (by decide) text1 r1 hg1 hr1
end Wick
end Wicked
