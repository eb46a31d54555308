import Verif.Proofs.Notebook
/-! # C96: the coupled-cluster notebooks from start to finish -/
namespace Wicked
open CppLt CppEq Rational Lin GenOp

namespace Wick
theorem gens_maxRank {α : Type} (P : GenProg α) : Gens (fun _ rank _ _ => rank ≤ P.maxRank) P := by
  induction P with
  | gen label rank cre ann => exact le_refl rank
  | plus a b iha ihb | minus a b iha ihb | mul a b iha ihb | comm a b iha ihb | bch a b n iha ihb =>
    exact ⟨iha.mono (fun _ _ _ _ h => h.trans (le_max_left _ _)), ihb.mono (fun _ _ _ _ h => h.trans (le_max_right _ _))⟩
  | scale n d a ih => exact ih

theorem gens_excites {α : Type} {o : OSI} {letters : α → Str} {P : GenProg α} (h : P.Excites o letters) :
    Gens (fun _ rank cre ann => 1 ≤ rank ∧ (∀ c ∈ letters cre, ∀ s ∈ o.spaces, s.label = c → s.spaceType = .unoccupied) ∧ ∀ c ∈ letters ann, ∀ s ∈ o.spaces, s.label = c → s.spaceType = .occupied) P := by
  induction P with
  | gen label rank cre ann => exact h
  | plus a b iha ihb | minus a b iha ihb | mul a b iha ihb | comm a b iha ihb | bch a b n iha ihb => exact ⟨iha h.1, ihb h.2⟩
  | scale n d a ih => exact ih h

theorem gens_and {α : Type} {Q Q' : Str → Nat → α → α → Prop} {P : GenProg α} (h : Gens Q P) (h' : Gens Q' P) : Gens (fun l r c a => Q l r c a ∧ Q' l r c a) P := by
  induction P with
  | gen label rank cre ann => exact ⟨h, h'⟩
  | plus a b iha ihb | minus a b iha ihb | mul a b iha ihb | comm a b iha ihb | bch a b n iha ihb => exact ⟨iha h.1 h'.1, ihb h.2 h'.2⟩
  | scale n d a ih => exact ih h h'

theorem spaceType_of {o : OSI} {s : Nat} {x : OrbitalSpace} (h : o.spaces[s]? = some x) : o.spaceType s = .ok x.spaceType := by
  simp [OSI.spaceType, OSI.space, h, bind, Except.bind, pure, Except.pure]

section
variable {Ω R B α : Type} [Inhabited Ω] [DecidableEq Ω] [CommRing R] [Ring B] [Algebra R B] [Algebra ℚ R] [Algebra ℚ B] [IsScalarTower ℚ R B]

/-- what a coupled-cluster program builds, and that `contract` returns -/
theorem cc_program_labels {Lab : Str → Prop} (hword : ∀ lab, Lab lab → ∀ c ∈ lab, isWord c = true) (hist : List RegOp) (hok : allOk OSI.empty hist) {cfg : WickCfg} {Hp Tp : GenProg α} {letters : α → Str} {S : α → Finset Ω} {ord : Nat} (minr maxr : Int) :
    let o := runReg OSI.empty hist
    o.spaces.length ≤ 8 → Hp.NonZero → Tp.NonZero → Hp.maxRank ≤ 2 → Tp.Excites o letters → (∀ lab ∈ Hp.labels ++ Tp.labels, Lab lab) →
    (GenProg.bch Hp Tp ord).numOps ≤ 52 → (GenProg.bch Hp Tp ord).perSpace letters ≤ 32 →
    ∀ (v : OrbSystem Ω R B) (hole : Ω → Bool), Names o v letters S → v.Antisymmetric → IsCAR v.op → v.Vacuum o hole →
    ∃ H T e, Hp.run o letters = .ok H ∧ Tp.run o letters = .ok T ∧ CCInput o H T Hp.numOps ∧ contractExpr o cfg (Rational.ofInt 1) (OpExpr.bchSeries H T ord) minr maxr = .ok e ∧
      (∀ p ∈ e, p.1.allIdx.toFinset.card ≤ 52) ∧ (∀ p ∈ e, ∀ y ∈ p.1.tensors, Lab y.label ∧ y.lower.length = y.upper.length) ∧
      v.exprValue hole o.spaces.length H = Hp.meaning v.T (normalProd hole v.op) S ∧ v.exprValue hole o.spaces.length T = Tp.meaning v.T (normalProd hole v.op) S := by
  intro o h8 hH hT h2 hexc hlab h52 h32 v hole hn hv hcar hvac
  obtain ⟨H, eH, rH⟩ := run_ok hist hok h8 hn hv (C81_normal_product hcar hole) hH
  obtain ⟨T, eT, rT⟩ := run_ok hist hok h8 hn hv (C81_normal_product hcar hole) hT
  obtain ⟨E, e, hE, he, hcard⟩ := C93_returns hist hok h8 hn.nodup hn.alpha (P := .bch Hp Tp ord) ⟨hH, hT⟩ (by omega) h32 (cfg := cfg) (canon_ofInt 1) minr maxr
  have hE' : (GenProg.bch Hp Tp ord).run o letters = .ok (OpExpr.bchSeries H T ord) := by
    show (do return OpExpr.bchSeries (← Hp.run o letters) (← Tp.run o letters) ord : Res OpExpr) = _
    rw [eH, eT]
    rfl
  rw [hE'] at hE
  cases hE
  have hR := goodReg hist hok
  have fH := run_form hist hok h8 hn.nodup hn.alpha (fun x => Lab x.label) ((gens_labels Hp).mono (fun l _ _ _ h _ _ _ => hlab l (List.mem_append_left _ h))) eH
  have fT := run_form hist hok h8 hn.nodup hn.alpha (fun x => Lab x.label ∧ ((List.range o.spaces.length).map x.gm.cre).sum = ((List.range o.spaces.length).map x.gm.ann).sum ∧
      1 ≤ ((List.range o.spaces.length).map x.gm.cre).sum ∧ (∀ s, x.gm.cre s ≠ 0 → o.spaceType s = .ok .unoccupied) ∧ (∀ s, x.gm.ann s ≠ 0 → o.spaceType s = .ok .occupied))
    ((gens_and (gens_labels Tp) (gens_excites hexc)).mono (by
      rintro l rank cre ann ⟨h, h1, h3, h4⟩ g s1 s2
      have hsp : ∀ {a : α} {c : Char} {s : Nat}, c ∈ letters a → o.labelToSpace c = .ok (s : Int) → ∃ x, o.spaces[s]? = some x ∧ x.label = c := by
        intro a c s hc hs
        obtain ⟨e1, _, e3⟩ := spOf_spec hR (hn.alpha a c hc).2
        have : spOf o c = s := by rw [e1] at hs; simpa using hs
        rw [← this]
        exact e3
      refine ⟨hlab l (List.mem_append_right _ h), s1.2.2.trans s2.2.2.symm, by rw [s1.2.2]; exact_mod_cast h1, fun s hs => ?_, fun s hs => ?_⟩
      · obtain ⟨c, hc, e⟩ := s1.2.1 s hs
        obtain ⟨x, hx, ex⟩ := hsp hc e
        rw [spaceType_of hx, h3 c hc x (List.mem_of_getElem? hx) ex]
      · obtain ⟨c, hc, e⟩ := s2.2.1 s hs
        obtain ⟨x, hx, ex⟩ := hsp hc e
        rw [spaceType_of hx, h4 c hc x (List.mem_of_getElem? hx) ex])) eT
  have fE := run_form hist hok h8 hn.nodup hn.alpha (fun x => Lab x.label ∧ ((List.range o.spaces.length).map x.gm.cre).sum = ((List.range o.spaces.length).map x.gm.ann).sum)
    ((gens_labels (GenProg.bch Hp Tp ord)).mono (fun l _ _ _ h g s1 s2 => ⟨hlab l h, s1.2.2.trans s2.2.2.symm⟩)) hE'
  obtain ⟨E', eE, rE⟩ := run_ok hist hok h8 hn hv (C81_normal_product hcar hole) (P := .bch Hp Tp ord) ⟨hH, hT⟩
  rw [hE'] at eE
  cases eE
  refine ⟨H, T, e, eH, eT, ?_, he, fun p hp => (hcard p hp).trans h52, ?_, ?_, ?_⟩
  · exact {
      builtH := rH.built
      builtT := rT.built
      neH := fun q hq => (fH q hq).1
      neT := fun q hq => (fT q hq).1
      size := by
        intro q hq
        refine le_trans (le_of_eq ?_) (rH.words q hq).2
        unfold wordOps
        congr 1
        refine List.map_congr_left (fun x hx => ?_)
        exact numOps_range h8 x.gm (fun t ht => (((rH.words q hq).1 x hx).1 t).2.2 ht)
      validH := by rintro x ⟨q, hq, hx⟩; exact ((rH.words q hq).1 x hx).1
      two := by
        rintro x ⟨q, hq, hx⟩ s
        have := ((rH.words q hq).1 x hx).2 s
        omega
      excT := by
        rintro x ⟨q, hq, hx⟩
        have hval := ((rT.words q hq).1 x hx).1
        obtain ⟨_, h1, h3, h4, h5⟩ := (fT q hq).2 x hx
        have h6 := numOps_range h8 x.gm (fun t ht => (hval t).2.2 ht)
        rw [List.sum_map_add, ← h1] at h6
        exact ⟨⟨hval, by show x.gm.numOps % 2 = 0; omega⟩, by show 0 < x.gm.numOps; omega, h4, h5⟩
      label := by
        rintro x (⟨q, hq, hx⟩ | ⟨q, hq, hx⟩)
        · exact hword _ ((fH q hq).2 x hx)
        · exact hword _ ((fT q hq).2 x hx).1 }
  · intro p hp y hy
    obtain ⟨q, hq, e', hc', p', hp', ep⟩ := contractExpr_mem he p hp
    have hwE := rE.words q hq
    have hper := C49_tensors_determinant h8 (by
      intro s hs hg
      rcases hvac.kind s hs with ⟨h, _⟩ | ⟨h, _⟩ <;> rw [hg] at h <;> cases h) (fun x hx => (hwE.1 x hx).1) (canon_mul (canon_ofInt 1) ((built_wf rE.built).toOk.canon q hq)) hc' hp'
    rw [ep] at hper
    have hm := hper.mem_iff.1 (List.mem_map_of_mem (f := fun y : Tensor => (y.label, y.lower.length, y.upper.length)) hy)
    obtain ⟨x, hx, ex⟩ := List.mem_map.1 hm
    obtain ⟨h1, h3⟩ := (fE q hq).2 x hx
    simp only [operatorShape, Prod.mk.injEq] at ex
    refine ⟨ex.1 ▸ h1, ?_⟩
    rw [← ex.2.1, ← ex.2.2]
    have cast : ∀ f : Nat → Int, (∀ s, 0 ≤ f s) → ((((List.range o.spaces.length).map (fun s => (f s).toNat)).sum : Nat) : Int) = ((List.range o.spaces.length).map f).sum := by
      intro f hf
      rw [Nat.cast_list_sum, List.map_map]
      congr 1
      exact List.map_congr_left (fun s _ => by simp [hf s])
    have c1 := cast x.gm.cre (fun s => ((hwE.1 x hx).1 s).1)
    have c2 := cast x.gm.ann (fun s => ((hwE.1 x hx).1 s).2.1)
    rw [h3, ← c2] at c1
    exact_mod_cast c1
  · rw [← rH.value, valHomOf_expr]; rfl
  · rw [← rT.value, valHomOf_expr]; rfl

theorem cc_program (hist : List RegOp) (hok : allOk OSI.empty hist) {cfg : WickCfg} {Hp Tp : GenProg α} {letters : α → Str} {S : α → Finset Ω} {ord : Nat} (minr maxr : Int) :
    let o := runReg OSI.empty hist
    o.spaces.length ≤ 8 → Hp.NonZero → Tp.NonZero → Hp.maxRank ≤ 2 → Tp.Excites o letters → (∀ lab ∈ Hp.labels ++ Tp.labels, lab = ['H'] ∨ lab = ['T']) →
    (GenProg.bch Hp Tp ord).numOps ≤ 52 → (GenProg.bch Hp Tp ord).perSpace letters ≤ 32 →
    ∀ (v : OrbSystem Ω R B) (hole : Ω → Bool), Names o v letters S → v.Antisymmetric → IsCAR v.op → v.Vacuum o hole →
    ∃ H T e, Hp.run o letters = .ok H ∧ Tp.run o letters = .ok T ∧ CCInput o H T Hp.numOps ∧ contractExpr o cfg (Rational.ofInt 1) (OpExpr.bchSeries H T ord) minr maxr = .ok e ∧
      (∀ p ∈ e, p.1.allIdx.toFinset.card ≤ 52) ∧ (∀ p ∈ e, ∀ y ∈ p.1.tensors, (y.label = ['H'] ∨ y.label = ['T']) ∧ y.lower.length = y.upper.length) ∧
      v.exprValue hole o.spaces.length H = Hp.meaning v.T (normalProd hole v.op) S ∧ v.exprValue hole o.spaces.length T = Tp.meaning v.T (normalProd hole v.op) S :=
  cc_program_labels (Lab := fun lab => lab = ['H'] ∨ lab = ['T']) (by rintro lab (rfl | rfl) <;> decide) hist hok minr maxr

/-- **C96**, any division into spaces: a program builds a Hamiltonian of operators of rank one and two and a cluster operator of excitations of any rank from calls of `gen_op`, and `bch_series` of an order that is not below the
number of second-quantized operators in a product of the Hamiltonian. If a product of the series has at most 52 second-quantized operators, at most 32 of one space, then all the calls return - `gen_op`, `bch_series`, `contract`, `to_manybody_equation` -, and the functions that
`generate_equation` makes return, antisymmetrised over the indices of each space, the matrix elements of `exp(-T) H exp(T)`, where `H` and `T` are the operators that the programs stand for, up to `10^-9` of the
sum of the absolute values of the terms. Where `generate_equation` finds no key the matrix elements are zero. -/
theorem C96_program {S' : Type} [Field S'] [LinearOrder S'] [IsStrictOrderedRing S'] (abv : AbsoluteValue R S') (habv : ∀ c : ℚ, abv (algebraMap ℚ R c) = ((|c| : ℚ) : S'))
    (hist : List RegOp) (hok : allOk OSI.empty hist) {fmt : Rational → Str} {cfg : WickCfg} {Hp Tp : GenProg α} {letters : α → Str} {S : α → Finset Ω} {ord : Nat} {minr maxr : Int} :
    let o := runReg OSI.empty hist
    (∀ s ∈ o.spaces, ∀ name ∈ s.indices, ∀ (c : Char) (n : Int), name ≠ c :: '_' :: '{' :: (intStr n ++ ['}'])) →
    (∀ s ∈ o.spaces, isAlpha s.label = true) → PrintsNine fmt → o.spaces.length ≤ 8 →
    Hp.NonZero → Tp.NonZero → Hp.maxRank ≤ 2 → Tp.Excites o letters → (∀ lab ∈ Hp.labels ++ Tp.labels, lab = ['H'] ∨ lab = ['T']) →
    Hp.numOps ≤ ord → (GenProg.bch Hp Tp ord).numOps ≤ 52 → (GenProg.bch Hp Tp ord).perSpace letters ≤ 32 →
    ∀ (v : OrbSystem Ω R B) (arr : Str → Str → List Ω → R) (dom : Char → Finset Ω) (hole : Ω → Bool) (φ : B →ₗ[R] R), Names o v letters S → v.Antisymmetric → IsCAR v.op → v.Vacuum o hole →
    IsVacuumExpectation v.op hole φ → (∀ lab key l u, l.length = u.length → arr lab key (u ++ l) = v.T lab l u) → (∀ (n : Nat) s, o.spaces[n]? = some s → dom s.label = v.dom n) →
    let H := Hp.meaning v.T (normalProd hole v.op) S
    let T := Tp.meaning v.T (normalProd hole v.op) S
    ∃ E e m, (GenProg.bch Hp Tp ord).run o letters = .ok E ∧ contractExpr o cfg (Rational.ofInt 1) E minr maxr = .ok e ∧ e.toManybody o ['R'] = .ok m ∧
      ∀ (n k : Nat → Nat) (nocc nvir : Nat), nocc = (repeatLabels o n).length → nvir = (repeatLabels o k).length → minr ≤ nocc + nvir → nocc + nvir ≤ maxr →
      (∃ text r, generateEquationSpace o fmt m nocc nvir (spaceKey o n k) = .ok text ∧
        ReturnsArray arr dom text ("evaluate_residual_".toList ++ (repeatLabels o n ++ repeatLabels o k))
          (if nocc + nvir = 0 then none else some (List.replicate nocc "nocc".toList ++ List.replicate nvir "nvir".toList)) r ∧
        ∀ u l : List Ω, List.Forall₂ (· ∈ ·) u ((repeatLabels o n).map dom) → List.Forall₂ (· ∈ ·) l ((repeatLabels o k).map dom) → (∀ x ∈ u, hole x = true) → (∀ x ∈ l, hole x = false) →
          abv (antisymmetrized (repeatLabels o n) (repeatLabels o k) r u l - φ (bra v.op u l * (IsNilpotent.exp (-T) * H * IsNilpotent.exp T))) ≤
            1 / 10 ^ 9 * (e.map (fun p => abv (φ (bra v.op u l * v.normalValue hole p.1)))).sum) ∨
      (generateEquationSpace o fmt m nocc nvir (spaceKey o n k) = .error .throw ∧
        ∀ u l : List Ω, List.Forall₂ (· ∈ ·) u ((repeatLabels o n).map dom) → List.Forall₂ (· ∈ ·) l ((repeatLabels o k).map dom) → (∀ x ∈ u, hole x = true) → (∀ x ∈ l, hole x = false) →
          φ (bra v.op u l * (IsNilpotent.exp (-T) * H * IsNilpotent.exp T)) = 0) := by
  intro o hgen hal hfmt h8 hH hT h2 hexc hlab hN h52 h32 v arr dom hole φ hn hv hcar hvac hφ harr hdom H T
  obtain ⟨Hx, Tx, e, eH, eT, hin, he, hcard, htens, vH, vT⟩ := cc_program (cfg := cfg) hist hok minr maxr h8 hH hT h2 hexc hlab h52 h32 v hole hn hv hcar hvac
  obtain ⟨m, hm, h⟩ := C85_residual_space_error_partial abv habv hist hgen hal hfmt h8 hin (by exact_mod_cast hN) he hcard (fun p hp y hy => (htens p hp y hy).1) v arr dom hole φ hv hcar hvac hφ
    (fun p hp y hy l u hl hu => harr _ _ l u (by rw [hl, hu, (htens p hp y hy).2])) hdom
  rw [vH, vT] at h
  refine ⟨_, e, m, ?_, he, hm, h⟩
  show (do return OpExpr.bchSeries (← Hp.run o letters) (← Tp.run o letters) ord : Res OpExpr) = _
  rw [eH, eT]
  rfl
end

section
variable {Ω R : Type} [Inhabited Ω] [Fintype Ω] [LinearOrder Ω] [CommRing R] [Algebra ℚ R]

theorem names_notebook {o : OSI} (ho : o.spaces.map (fun s => (s.label, s.spaceType)) = [('o', .occupied), ('v', .unoccupied)]) (hR : GoodReg o) (T : Str → List Ω → List Ω → R) (hole : Ω → Bool) :
    let v : OrbSystem Ω R (Module.End R (FockSpace Ω R)) := ⟨fun s => Finset.univ.filter (fun x => hole x = decide (s = 0)), T, fockOp R hole⟩
    Names o v letters2 (fun a => if a = 0 then Finset.univ else Finset.univ.filter (fun x => hole x = decide (a = 1))) ∧ v.Vacuum o hole := by
  intro v
  match hs : o.spaces, ho with
  | [a, b], ho =>
    simp only [hs, List.map_cons, List.map_nil, List.cons.injEq, Prod.mk.injEq, and_true] at ho
    obtain ⟨⟨a1, a2⟩, b1, b2⟩ := ho
    have hlen : o.spaces.length = 2 := by rw [hs]; rfl
    have lo : o.labelToSpace 'o' = .ok 0 := by rw [hR.iff]; simp [OSI.numSpaces, OSI.label, OSI.space, hs, a1, bind, Except.bind, pure, Except.pure]
    have lv : o.labelToSpace 'v' = .ok 1 := by rw [hR.iff]; simp [OSI.numSpaces, OSI.label, OSI.space, hs, b1, bind, Except.bind, pure, Except.pure]
    have hdis : ∀ s s' : Nat, s < o.spaces.length → s' < o.spaces.length → s ≠ s' → ∀ x ∈ v.dom s, x ∉ v.dom s' := by
      intro s s' h1 h2 hne x hx hx'
      rw [hlen] at h1 h2
      simp only [v, Finset.mem_filter, Finset.mem_univ, true_and] at hx hx'
      rw [hx, decide_eq_decide] at hx'
      omega
    refine ⟨⟨?_, ?_, ?_, hdis⟩, ⟨?_, hdis⟩⟩
    · decide
    · intro i c hc
      rw [hs]
      simp only [List.map_cons, List.map_nil, a1, b1]
      revert i c
      decide
    · intro i
      unfold labelledOrbs
      match i with
      | 0 =>
        ext x
        simp only [letters2, if_true, Finset.mem_biUnion, List.mem_toFinset, Finset.mem_univ, iff_true]
        cases hx : hole x with
        | true => exact ⟨'o', by decide, by simp [lo, v, hx]⟩
        | false => exact ⟨'v', by decide, by simp [lv, v, hx]⟩
      | 1 => 
        show (['o'] : Str).toFinset.biUnion _ = _
        simp [lo, v]
      | 2 =>
        show (['v'] : Str).toFinset.biUnion _ = _
        simp [lv, v]
    · intro s hlt
      rw [hlen] at hlt
      match s, hlt with
      | 0, _ => left; exact ⟨by rw [spaceType_of (x := a) (by rw [hs]; rfl), a2], by intro x hx; simpa [v] using hx⟩
      | 1, _ => right; exact ⟨by rw [spaceType_of (x := b) (by rw [hs]; rfl), b2], by intro x hx; simpa [v] using hx⟩
  | [], ho => simp [hs] at ho
  | [a], ho => simp [hs] at ho
  | a :: b :: c :: l, ho => simp [hs] at ho

/-- the Hamiltonian of the notebooks -/
def hamProg : GenProg (Fin 3) := .plus (.gen ['H'] 1 0 0) (.gen ['H'] 2 0 0)

theorem cluster_facts {o : OSI} (ho : o.spaces.map (fun s => (s.label, s.spaceType)) = [('o', .occupied), ('v', .unoccupied)]) (rs : List Nat) : ∀ r : Nat, (∀ n ∈ r :: rs, 1 ≤ n ∧ n ≤ 6) →
    (clusterProg r rs).NonZero ∧ (clusterProg r rs).Excites o letters2 ∧ (∀ lab ∈ (clusterProg r rs).labels, lab = ['H'] ∨ lab = ['T']) ∧ (clusterProg r rs).numOps ≤ 12 ∧ (clusterProg r rs).perSpace letters2 ≤ 6 := by
  have hmem : ∀ s ∈ o.spaces, (s.label = 'o' → s.spaceType = .occupied) ∧ (s.label = 'v' → s.spaceType = .unoccupied) := by
    intro s hs
    have := List.mem_map_of_mem (f := fun s : OrbitalSpace => (s.label, s.spaceType)) hs
    rw [ho] at this
    simp only [List.mem_cons, Prod.mk.injEq, List.not_mem_nil, or_false] at this
    rcases this with ⟨h1, h2⟩ | ⟨h1, h2⟩ <;> rw [h1, h2] <;> simp
  have hone : ∀ r : Nat, 1 ≤ r → r ≤ 6 → (GenProg.gen ['T'] r 2 1 : GenProg (Fin 3)).Excites o letters2 ∧ (GenProg.gen ['T'] r 2 1 : GenProg (Fin 3)).perSpace letters2 ≤ 6 := by
    intro r h1 h6
    refine ⟨⟨h1, ?_, ?_⟩, ?_⟩
    · intro c hc s hs hl
      have : c = 'v' := List.mem_singleton.1 hc
      exact (hmem s hs).2 (hl.trans this)
    · intro c hc s hs hl
      have : c = 'o' := List.mem_singleton.1 hc
      exact (hmem s hs).1 (hl.trans this)
    · rw [GenProg.perSpace, if_pos (by decide)]; exact h6
  induction rs with
  | nil =>
    intro r h
    have h := h r (by simp)
    refine ⟨trivial, (hone r h.1 h.2).1, ?_, ?_, (hone r h.1 h.2).2⟩
    · intro lab hl; exact .inr (List.mem_singleton.1 hl)
    · show 2 * r ≤ 12; omega
  | cons r' rs ih =>
    intro r h
    have hr := h r (by simp)
    obtain ⟨h1, h2, h3, h4, h5⟩ := ih r' (fun n hn => h n (by simp [hn]))
    refine ⟨⟨trivial, h1⟩, ⟨(hone r hr.1 hr.2).1, h2⟩, ?_, ?_, ?_⟩
    · intro lab hl
      rcases List.mem_cons.1 hl with hl | hl
      · exact .inr hl
      · exact h3 lab hl
    · show max (2 * r) _ ≤ 12; omega
    · exact max_le (hone r hr.1 hr.2).2 h5

theorem cluster_meaning {B : Type} [Ring B] [Algebra R B] [Algebra ℚ B] (T : Str → List Ω → List Ω → R) (N : List (SQType × Ω) → B) (S : Fin 3 → Finset Ω) (rs : List Nat) : ∀ r : Nat,
    (clusterProg r rs).meaning T N S = ((r :: rs).map (fun n => manyBody (T ['T']) N n (S 2) (S 1))).sum := by
  induction rs with
  | nil => intro r; simp [clusterProg, GenProg.meaning]
  | cons r' rs ih => intro r; rw [clusterProg, GenProg.meaning, ih r', GenProg.meaning, List.map_cons (a := r), List.sum_cons]

/-- **C96**, the spin-orbital notebooks from start to finish (examples/numerical/spinorbital-CCSD.ipynb, spinorbital-CCSDT.ipynb): with the spaces `o` and `v`, `Top = w.op("T", ["v+ o", "v+ v+ o o", ...])` for any set of
excitation ranks up to six, `Hop = gen_op("H", 1, "ov", "ov") + gen_op("H", 2, "ov", "ov")` and `Hbar = w.bch_series(Hop, Top, 4)`. Then `op`, `gen_op`, `bch_series`, `contract` and `to_manybody_equation` return, and the
functions of `generate_equation` return, antisymmetrised, the matrix elements `⟨excited determinant| exp(-T) H exp(T) |reference⟩` in Fock space, where `H` is the sum of the one- and two-body operators over all orbitals and `T` the
sum of the excitation operators: up to `10^-9` of the sum of the absolute values of the terms, and exactly if nine decimals are enough for the coefficients. If there is no function for a number of indices the matrix elements are zero. -/
theorem C96_notebook {S' : Type} [Field S'] [LinearOrder S'] [IsStrictOrderedRing S'] (abv : AbsoluteValue R S') (habv : ∀ c : ℚ, abv (algebraMap ℚ R c) = ((|c| : ℚ) : S'))
    (hist : List RegOp) (hok : allOk OSI.empty hist) {fmt : Rational → Str} {cfg : WickCfg} {ranks : List Nat} {unique : Bool} {minr maxr : Int} :
    let o := runReg OSI.empty hist
    o.spaces.map (fun s => (s.label, s.spaceType)) = [('o', .occupied), ('v', .unoccupied)] →
    (∀ s ∈ o.spaces, ∀ name ∈ s.indices, ∀ (c : Char) (n : Int), name ≠ c :: '_' :: '{' :: (intStr n ++ ['}'])) → PrintsNine fmt →
    ranks ≠ [] → ranks.Nodup → (∀ n ∈ ranks, 1 ≤ n ∧ n ≤ 6) →
    ∀ (tensor : Str → List Ω → List Ω → R) (arr : Str → Str → List Ω → R) (hole : Ω → Bool),
    let occ : Finset Ω := Finset.univ.filter (fun x => hole x = true)
    let vir : Finset Ω := Finset.univ.filter (fun x => hole x = false)
    let v : OrbSystem Ω R (Module.End R (FockSpace Ω R)) := ⟨fun s => if s = 0 then occ else vir, tensor, fockOp R hole⟩
    let dom : Char → Finset Ω := fun c => if c = 'o' then occ else vir
    v.Antisymmetric → (∀ lab key l u, l.length = u.length → (∀ c ∈ key, c = 'o' ∨ c = 'v') → arr lab key (u ++ l) = tensor lab l u) →
    let N := normalProd hole (fockOp R hole)
    let H := manyBody (tensor ['H']) N 1 Finset.univ Finset.univ + manyBody (tensor ['H']) N 2 Finset.univ Finset.univ
    let T := (ranks.map (fun n => manyBody (tensor ['T']) N n vir occ)).sum
    ∃ E e m, notebookHbar o ranks unique = .ok E ∧ contractExpr o cfg (Rational.ofInt 1) E minr maxr = .ok e ∧ e.toManybody o ['R'] = .ok m ∧
      ∀ n k : Nat, minr ≤ n + k → n + k ≤ maxr →
      (∃ text r, generateEquation o fmt m n k = .ok text ∧
        ReturnsArray arr dom text ("evaluate_residual_".toList ++ natStr n ++ "_".toList ++ natStr k)
          (if n + k = 0 then none else some (List.replicate n "nocc".toList ++ List.replicate k "nvir".toList)) r ∧
        ∀ u l : List Ω, u.length = n → l.length = k → (∀ x ∈ u, hole x = true) → (∀ x ∈ l, hole x = false) →
          abv (antisymmetrizer 0 n (antisymmetrizer n k r) (u ++ l) - fockExpectation R (bra (fockOp R hole) u l * (IsNilpotent.exp (-T) * H * IsNilpotent.exp T))) ≤
            1 / 10 ^ 9 * (e.map (fun p => abv (fockExpectation R (bra (fockOp R hole) u l * v.normalValue hole p.1)))).sum ∧
          ((∀ p ∈ e, p.2.den ∣ 10 ^ 9) → antisymmetrizer 0 n (antisymmetrizer n k r) (u ++ l) = fockExpectation R (bra (fockOp R hole) u l * (IsNilpotent.exp (-T) * H * IsNilpotent.exp T)))) ∨
      (generateEquation o fmt m n k = .error .throw ∧
        ∀ u l : List Ω, u.length = n → l.length = k → (∀ x ∈ u, hole x = true) → (∀ x ∈ l, hole x = false) →
          fockExpectation R (bra (fockOp R hole) u l * (IsNilpotent.exp (-T) * H * IsNilpotent.exp T)) = 0) := by
  intro o ho hgen hfmt hne hnd h6 tensor arr hole occ vir v dom hv harr N H T
  have hR := goodReg hist hok
  have hlen : o.spaces.length = 2 := by rw [← List.length_map (f := fun s : OrbitalSpace => (s.label, s.spaceType)), ho]; rfl
  have hlab : o.spaces.map (·.label) = ['o', 'v'] := by
    have : o.spaces.map (·.label) = (o.spaces.map (fun s => (s.label, s.spaceType))).map Prod.fst := by rw [List.map_map]; rfl
    rw [this, ho]; rfl
  have hmo : 'o' ∈ o.spaces.map (·.label) := by rw [hlab]; decide
  have hmv : 'v' ∈ o.spaces.map (·.label) := by rw [hlab]; decide
  have hal : ∀ s ∈ o.spaces, isAlpha s.label = true := by
    intro s hs
    have := List.mem_map_of_mem (f := (·.label)) hs
    rw [hlab] at this
    revert this
    generalize s.label = c
    revert c
    decide
  obtain ⟨r, rs, rfl⟩ := List.exists_cons_of_ne_nil hne
  obtain ⟨c1, c2, c3, c4, c5⟩ := cluster_facts ho rs r h6
  obtain ⟨hn, hvac⟩ := names_notebook (R := R) ho hR tensor hole
  have hvv : (⟨fun s => Finset.univ.filter (fun x => hole x = decide (s = 0)), tensor, fockOp R hole⟩ : OrbSystem Ω R (Module.End R (FockSpace Ω R))) = v := by
    simp only [v]
    congr 1
    funext s
    by_cases h : s = 0 <;> simp [h, occ, vir]
  rw [hvv] at hn hvac
  have h8 : o.spaces.length ≤ 8 := by omega
  obtain ⟨Hx, Tx, e, eH, eT, hin, he, hcard, htens, vH, vT⟩ := cc_program (cfg := cfg) (Hp := hamProg) (Tp := clusterProg r rs) (ord := 4) hist hok minr maxr h8 ⟨trivial, trivial⟩ c1 (by decide) c2
    (by intro lab hl
        rcases List.mem_append.1 hl with hl | hl
        · left; exact (by decide : ∀ lab ∈ hamProg.labels, lab = ['H']) lab hl
        · exact c3 lab hl)
    (by show hamProg.numOps + 4 * _ ≤ 52
        have : hamProg.numOps = 4 := by decide
        omega)
    (by show hamProg.perSpace letters2 + 4 * _ ≤ 32
        have : hamProg.perSpace letters2 = 4 := by decide
        omega) v hole hn hv (fock_car hole) hvac
  have vH' : v.exprValue hole o.spaces.length Hx = H := by rw [vH]; rfl
  have vT' : v.exprValue hole o.spaces.length Tx = T := by
    rw [vT, cluster_meaning]
    have e1 : (if (2 : Fin 3) = 0 then Finset.univ else Finset.univ.filter (fun x => hole x = decide ((2 : Fin 3) = 1))) = vir := by simp [vir]
    have e2 : (if (1 : Fin 3) = 0 then Finset.univ else Finset.univ.filter (fun x => hole x = decide ((1 : Fin 3) = 1))) = occ := by simp [occ]
    rw [e1, e2]
  have harr' : ∀ p ∈ e, ∀ y ∈ p.1.tensors, ∀ l u, l.length = y.lower.length → u.length = y.upper.length → arr y.label (spaceText o y) (u ++ l) = v.T y.label l u :=
    fun p hp y hy l u hl hu => harr _ _ l u (by rw [hl, hu, (htens p hp y hy).2]) (by
      obtain ⟨q, hq, e', hc', p', hp', he'⟩ := contractExpr_mem he p hp
      obtain ⟨hE, _⟩ := ccInput_bch hin 4
      have hcomp := contract_compilable h8 (fun r hr => ((hE q hq).2.2 r hr).1) (hE q hq).1 (fun r hr => ((hE q hq).2.2 r hr).2) (canon_mul (canon_ofInt 1) (hE q hq).2.1) hc' hp' (by rw [he']; exact hcard p hp)
      rw [he'] at hcomp
      intro c hc
      obtain ⟨i, hi, rfl⟩ := List.mem_map.1 hc
      have hreg := hcomp.registered i (List.mem_append_right _ (List.mem_flatMap.2 ⟨y, hy, by rcases List.mem_append.1 hi with h | h <;> simp [h]⟩))
      have hlt : i.space.toNat < o.spaces.length := hreg.2
      have : (o.spaces.map (·.label))[i.space.toNat]? = some (o.spaces[i.space.toNat].label) := by rw [List.getElem?_map, List.getElem?_eq_getElem hlt]; rfl
      rw [hlab] at this
      rw [List.getElem?_eq_getElem hlt, Option.map_some, Option.getD_some]
      have hmem := List.mem_of_getElem? this
      simpa using hmem)
  have hdom : ∀ (n : Nat) s, o.spaces[n]? = some s → dom s.label = v.dom n := by
    intro n s hs
    have h1 : (o.spaces.map (·.label))[n]? = some s.label := by rw [List.getElem?_map, hs]; rfl
    rw [hlab] at h1
    match n with
    | 0 => simp at h1; simp [dom, v, ← h1]
    | 1 => simp at h1; simp [dom, v, ← h1]
    | n + 2 => simp at h1
  have so : ∃ s ∈ o.spaces, s.label = 'o' := List.mem_map.1 hmo
  have sv : ∃ s ∈ o.spaces, s.label = 'v' := List.mem_map.1 hmv
  have hHT : ∀ p ∈ e, ∀ y ∈ p.1.tensors, y.label = ['H'] ∨ y.label = ['T'] := fun p hp y hy => (htens p hp y hy).1
  have hNN : ((hamProg.numOps : Nat) : Int) ≤ ((4 : Nat) : Int) := by decide
  obtain ⟨m, hm, h⟩ := C85_residual_error_partial abv habv hist hgen hal hfmt so sv h8 hin hNN he hcard hHT v arr dom hole (fockExpectation R) hv (fock_car hole) hvac (fock_expectation hole) harr' hdom
  rw [vH', vT'] at h
  have hocc : ∀ {u : List Ω}, (∀ x ∈ u, hole x = true) → ∀ x ∈ u, x ∈ dom 'o' ∧ hole x = true := fun hu x hx => ⟨by simp [dom, occ, hu x hx], hu x hx⟩
  have hvir : ∀ {l : List Ω}, (∀ x ∈ l, hole x = false) → ∀ x ∈ l, x ∈ dom 'v' ∧ hole x = false := fun hu x hx => ⟨by simp [dom, vir, hu x hx], hu x hx⟩
  refine ⟨OpExpr.bchSeries Hx Tx 4, e, m, ?_, he, hm, fun n k h1 h2 => ?_⟩
  · unfold notebookHbar
    rw [make_cluster hist hok h8 hmv hmo r rs hnd (fun n hn => (h6 n hn).1) unique, eT]
    obtain ⟨X, k1, k⟩ := bind_ok' eH
    obtain ⟨Y, k2, k⟩ := bind_ok' k
    have k1' : genOp o ['H'] 1 ['o', 'v'] ['o', 'v'] true = .ok X := k1
    have k2' : genOp o ['H'] 2 ['o', 'v'] ['o', 'v'] true = .ok Y := k2
    cases k
    show (do let H1 ← genOp o ['H'] 1 ['o', 'v'] ['o', 'v'] true; let H2 ← genOp o ['H'] 2 ['o', 'v'] ['o', 'v'] true; return OpExpr.bchSeries (OpExpr.plus H1 H2) Tx 4 : Res OpExpr) = _
    rw [k1', k2']
    rfl
  rcases h n k h1 h2 with ⟨text, a, ht, ha, hval⟩ | ⟨ht, hval⟩
  · refine .inl ⟨text, a, ht, ha, fun u l hu hl hhu hhl => ⟨hval u l hu hl (hocc hhu) (hvir hhl), fun hden => ?_⟩⟩
    obtain ⟨m', hm', h'⟩ := C85_residual_partial hist hgen hal hfmt so sv h8 hin hNN he (fun p hp => ⟨hcard p hp, hden p hp⟩) hHT v arr dom hole (fockExpectation R) hv (fock_car hole) hvac (fock_expectation hole) harr' hdom
    rw [vH', vT'] at h'
    rw [hm] at hm'
    cases hm'
    rcases h' n k h1 h2 with ⟨text', a', ht', ha', hval'⟩ | ⟨ht', _⟩
    · rw [ht] at ht'
      cases ht'
      have := returnsArray_unique ha ha'
      subst this
      exact (hval' u l hu hl (hocc hhu) (hvir hhl)).symm
    · rw [ht] at ht'; cases ht'
  · exact .inr ⟨ht, fun u l hu hl hhu hhl => hval u l hu hl (hocc hhu) (hvir hhl)⟩
end

theorem srReg_names : ∀ s ∈ (runReg OSI.empty srHistory).spaces, ∀ name ∈ s.indices, ∀ (c : Char) (n : Int), name ≠ c :: '_' :: '{' :: (intStr n ++ ['}']) := by
  intro s hs name hn
  rw [(by decide : ∀ s ∈ (runReg OSI.empty srHistory).spaces, s.indices = []) s hs] at hn
  cases hn

/-- tensors of any rank on four orbitals -/
def tensor4 (_ : Str) (l u : List (Fin 4)) : ℚ := vdm (l.map (fun x => (x.val : ℤ))) * vdm (u.map (fun x => (x.val : ℤ)))

theorem tensor4_anti (dom : Int → Finset (Fin 4)) : (⟨dom, tensor4, fockOp ℚ hole4⟩ : OrbSystem (Fin 4) ℚ (Module.End ℚ (FockSpace (Fin 4) ℚ))).Antisymmetric := by
  intro lab
  refine ⟨fun pre a b post u => ?_, fun l pre a b post => ?_⟩
  · show vdm _ * vdm _ = -(vdm _ * vdm _)
    simp only [List.map_append, List.map_cons]
    rw [vdm_anti]; ring
  · show vdm _ * vdm _ = -(vdm _ * vdm _)
    simp only [List.map_append, List.map_cons]
    rw [vdm_anti]; ring

/-- the arrays with the elements of these tensors, upper indices first -/
def arr4 (lab _key : Str) (x : List (Fin 4)) : ℚ := tensor4 lab (x.drop (x.length / 2)) (x.take (x.length / 2))

theorem arr4_eq (lab key : Str) (l u : List (Fin 4)) (h : l.length = u.length) : arr4 lab key (u ++ l) = tensor4 lab l u := by
  unfold arr4
  rw [List.length_append, h, show (u.length + u.length) / 2 = u.length by omega]
  simp

-- all hypotheses hold for CCSD and for CCSDT, with two occupied and two virtual orbitals and antisymmetric tensors that are not zero: the notebooks run to the end
example : ∃ E e m, notebookHbar (runReg OSI.empty srHistory) [1, 2] true = .ok E ∧ contractExpr (runReg OSI.empty srHistory) {} (Rational.ofInt 1) E 0 4 = .ok e ∧
    e.toManybody (runReg OSI.empty srHistory) ['R'] = .ok m := by
  obtain ⟨E, e, m, h1, h2, h3, _⟩ := C96_notebook (R := ℚ) AbsoluteValue.abs (by intro c; simp) srHistory (by refine ⟨?_, ?_, trivial⟩ <;> decide +kernel) (fmt := cutAt 9) (cfg := {}) (ranks := [1, 2])
    (unique := true) (minr := 0) (maxr := 4) (by decide +kernel) srReg_names cut9_prints (by decide) (by decide) (by decide) tensor4 arr4 hole4 (tensor4_anti _) (fun lab key l u h _ => arr4_eq lab key l u h)
  exact ⟨E, e, m, h1, h2, h3⟩

example : ∃ E e m, notebookHbar (runReg OSI.empty srHistory) [1, 2, 3] true = .ok E ∧ contractExpr (runReg OSI.empty srHistory) {} (Rational.ofInt 1) E 0 6 = .ok e ∧
    e.toManybody (runReg OSI.empty srHistory) ['R'] = .ok m := by
  obtain ⟨E, e, m, h1, h2, h3, _⟩ := C96_notebook (R := ℚ) AbsoluteValue.abs (by intro c; simp) srHistory (by refine ⟨?_, ?_, trivial⟩ <;> decide +kernel) (fmt := cutAt 9) (cfg := {}) (ranks := [1, 2, 3])
    (unique := true) (minr := 0) (maxr := 6) (by decide +kernel) srReg_names cut9_prints (by decide) (by decide) (by decide) tensor4 arr4 hole4 (tensor4_anti _) (fun lab key l u h _ => arr4_eq lab key l u h)
  exact ⟨E, e, m, h1, h2, h3⟩

example : tensor4 ['H'] [0, 1] [2, 3] = 1 := by decide +kernel

end Wick
end Wicked
