import Verif.Spec.Determinant
import Verif.Props.WickGeneral
import Verif.Props.GenOpValue
/-! # C94: general spaces and a reference that is a single determinant -/
namespace Wicked
open CppLt CppEq Rational GenOp Finset Gno

section
variable {Ω R B : Type} [DecidableEq Ω] [CommRing R] [Ring B] [Algebra R B]

theorem anti_sorted {Y : Type} [AddCommGroup Y] {F : List (SQType × Ω) → Y} (hF : AntisymmFun F) (hole : Ω → Bool) (l : List (SQType × Ω)) :
    ∀ pre, F (pre ++ l) = normalSign hole l • F (pre ++ (l.filter (fun m => !kills hole m) ++ l.filter (fun m => kills hole m))) := by
  induction l with
  | nil => intro pre; simp [normalSign]
  | cons m l ih =>
    intro pre
    have := ih (pre ++ [m])
    rw [List.append_assoc, List.append_assoc] at this
    simp only [List.cons_append, List.nil_append] at this
    rw [this]
    cases hk : kills hole m
    · simp [normalSign, hk]
    · rw [anti_move hF, smul_smul]
      simp only [normalSign, hk, List.filter_cons, Bool.not_true, if_true, Bool.false_eq_true, if_false]
      rw [mul_comm, List.countP_eq_length_filter]

theorem det_contraction_zero (hole : Ω → Bool) {l : List (SQType × Ω)} (h : l.Pairwise (fun x y => kills hole x = true → kills hole y = true)) :
    (determinant hole : Reference Ω R).contraction l = 0 := by
  by_cases h2 : l.length = 2
  · obtain ⟨⟨s, p⟩, ⟨t, q⟩, rfl⟩ := List.length_eq_two.1 h2
    have h := List.rel_of_pairwise_cons h (List.mem_singleton.2 rfl)
    cases s <;> cases t
    · rfl
    · show (if p = q ∧ hole p = true then (1 : R) else 0) = 0
      rw [if_neg]
      rintro ⟨rfl, hp⟩
      have := h hp
      simp [kills, hp] at this
    · show (if q = p then (1 : R) else 0) - (if q = p ∧ hole q = true then (1 : R) else 0) = 0
      by_cases hqp : q = p
      · subst hqp
        cases hq : hole q
        · have := h (by simp [kills, hq])
          simp [kills, hq] at this
        · simp
      · simp [hqp]
    · rfl
  · rw [contraction_big _ h2]
    simp [determinant]

theorem partOf_pairwise {α : Type} [DecidableEq α] {r : α → α → Prop} {L : List α} (h : L.Pairwise r) (b : Finset α) : (partOf L b).Pairwise r :=
  h.sublist List.filter_sublist

/-- **C94**: the generalised normal products with respect to a determinant are the ordinary normal products. -/
theorem C94_normal_product {op : SQType → Ω → B} (hcar : IsCAR op) (hole : Ω → Bool) : IsGNO op (determinant hole : Reference Ω R) (normalProd hole op) := by
  obtain ⟨N, hN, _⟩ := Wick.C72_gno_exists_unique op (determinant hole : Reference Ω R)
  have hanti : AntisymmFun N := gno_antisymm hcar ⟨by intros; simp [determinant], by intros; simp [determinant]⟩ hN
  have hsorted : ∀ l : List (SQType × Ω), l.Pairwise (fun x y => kills hole x = true → kills hole y = true) → N l = (l.map (fun m => op m.1 m.2)).prod := by
    intro l hl
    rw [hN l, conSum_split, Finset.sum_eq_zero, add_zero]
    intro S hS
    obtain ⟨hne, hS⟩ := Finset.mem_erase.1 hS
    obtain ⟨b, hb⟩ := Finset.nonempty_iff_ne_empty.2 hne
    unfold conTerm
    rw [Finset.prod_eq_zero hb, mul_zero, zero_smul]
    apply det_contraction_zero
    rw [List.pairwise_map]
    apply partOf_pairwise
    have : ((List.finRange l.length).map l.get).Pairwise (fun x y => kills hole x = true → kills hole y = true) := by
      rw [List.map_get_finRange]; exact hl
    exact List.pairwise_map.1 this
  have : normalProd hole op = N := by
    funext l
    have h1 := anti_sorted hanti hole l []
    rw [List.nil_append, List.nil_append] at h1
    rw [h1, hsorted]
    · unfold normalProd
      rw [List.map_append, List.prod_append, zsmul_eq_mul]
    · rw [List.pairwise_append]
      refine ⟨?_, ?_, ?_⟩
      · exact List.Pairwise.imp_of_mem (R := fun _ _ => True) (fun {x y} hx _ _ hk => by
          have := (List.mem_filter.1 hx).2
          simp [hk] at this) (List.pairwise_of_forall (fun _ _ => trivial))
      · exact List.Pairwise.imp_of_mem (R := fun _ _ => True) (fun {x y} _ hy _ _ => (List.mem_filter.1 hy).2) (List.pairwise_of_forall (fun _ _ => trivial))
      · intro x _ y hy _
        exact (List.mem_filter.1 hy).2
  rw [this]; exact hN

/-- **C94**: a vacuum expectation value is a state with this reference. -/
theorem C94_vacuum_state [Inhabited Ω] [Algebra ℚ B] {op : SQType → Ω → B} (hcar : IsCAR op) {hole : Ω → Bool} {φ : B →ₗ[R] R} (hφ : IsVacuumExpectation op hole φ) :
    IsReferenceState op (determinant hole) φ := by
  intro l
  rw [C94_normal_product (R := R) hcar hole l]
  unfold conSum
  rw [map_sum]
  refine Finset.sum_congr rfl fun S _ => ?_
  unfold conTerm
  rw [map_smul]
  congr 1
  cases h : (restOf (List.finRange l.length) S).map l.get with
  | nil => simp [normalProd, normalSign, hφ.one]
  | cons m r => rw [Wick.normalProd_expectation hφ (by simp)]; rfl

/-- **C94**: occupied and unoccupied spaces describe the determinant. -/
theorem C94_vacuum_reference [Inhabited Ω] {v : OrbSystem Ω R B} {o : OSI} {hole : Ω → Bool} (h : v.Vacuum o hole) {m : Int} : v.HasReference o m (determinant hole) where
  disjoint := h.disjoint
  occupied := by
    intro s hs ht p hp q _
    rcases h.kind s hs with ⟨_, h1⟩ | ⟨h1, _⟩
    · simp [determinant, h1 p hp]
    · rw [ht] at h1; cases h1
  unoccupied := by
    intro s hs ht p hp q _
    rcases h.kind s hs with ⟨h1, _⟩ | ⟨_, h1⟩
    · rw [ht] at h1; cases h1
    · simp [determinant, h1 p hp]
  gamma1 := by
    intro s hs ht
    rcases h.kind s hs with ⟨h1, _⟩ | ⟨h1, _⟩ <;> (rw [ht] at h1; cases h1)
  eta1 := by
    intro s hs ht
    rcases h.kind s hs with ⟨h1, _⟩ | ⟨h1, _⟩ <;> (rw [ht] at h1; cases h1)
  lambda := by
    intro s hs ht
    rcases h.kind s hs with ⟨h1, _⟩ | ⟨h1, _⟩ <;> (rw [ht] at h1; cases h1)
  uncorrelated_gamma := by
    intro s s' hs hs' hne p hp q hq
    show (if p = q ∧ hole p = true then (1 : R) else 0) = 0
    rw [if_neg]
    rintro ⟨rfl, _⟩
    exact h.disjoint s s' hs hs' hne p hp hq
  uncorrelated := by intros; rfl
  bounded := by intros; rfl
end

section
variable {Ω R B : Type} [Inhabited Ω] [DecidableEq Ω] [CommRing R] [Algebra ℚ R] [Ring B] [Algebra R B] [Algebra ℚ B] [IsScalarTower ℚ R B]

omit [Inhabited Ω] [Algebra ℚ R] [IsScalarTower ℚ R B] in
theorem meaning_congr {α : Type} {T T' : Str → List Ω → List Ω → R} (N : List (SQType × Ω) → B) (S : α → Finset Ω) :
    ∀ P : GenProg α, (∀ lab ∈ P.labels, T' lab = T lab) → P.meaning T' N S = P.meaning T N S := by
  intro P
  induction P with
  | gen label rank cre ann => intro h; simp only [GenProg.meaning]; rw [h label (by simp [GenProg.labels])]
  | scale n d a ih => intro h; simp only [GenProg.meaning]; rw [ih h]
  | plus a b iha ihb | minus a b iha ihb | mul a b iha ihb | comm a b iha ihb | bch a b n iha ihb =>
    intro h
    simp only [GenProg.labels, List.mem_append] at h
    simp only [GenProg.meaning]
    rw [iha (fun l hl => h l (Or.inl hl)), ihb (fun l hl => h l (Or.inr hl))]

/-- **C94**: two registries may divide the orbitals differently and declare the spaces as occupied, unoccupied or general: as long as both describe the same reference,
a program is contracted to expressions of the same value. Missing: as in `C93_contract_partial`. -/
theorem C94_registries_partial {α : Type} {hist hist' : List RegOp} (hok : allOk OSI.empty hist) (hok' : allOk OSI.empty hist')
    (h8 : (runReg OSI.empty hist).spaces.length ≤ 8) (h8' : (runReg OSI.empty hist').spaces.length ≤ 8) {v v' : OrbSystem Ω R B} (hop : v'.op = v.op)
    {letters letters' : α → Str} {S : α → Finset Ω} (hn : Names (runReg OSI.empty hist) v letters S) (hn' : Names (runReg OSI.empty hist') v' letters' S)
    (hv : v.Antisymmetric) (hv' : v'.Antisymmetric) (hcar : IsCAR v.op) {cfg cfg' : WickCfg} (hmc : 1 ≤ cfg.maxCumulant) (hmc' : 1 ≤ cfg'.maxCumulant)
    {ρ : Reference Ω R} (hρ : ρ.Antisymmetric) (href : v.HasReference (runReg OSI.empty hist) cfg.maxCumulant ρ) (href' : v'.HasReference (runReg OSI.empty hist') cfg'.maxCumulant ρ)
    {N : List (SQType × Ω) → B} (hN : IsGNO v.op ρ N) {P : GenProg α} (hT : ∀ lab ∈ P.labels, v'.T lab = v.T lab) (hP : P.NonZero) (h2 : P.NoTriple letters) (h2' : P.NoTriple letters')
    {f : Rational} (hf : Canon f) {minr maxr : Int} (hmin : minr ≤ 0) (hmax : P.numOps ≤ maxr) {E E' : OpExpr} {e e' : Expr}
    (hE : P.run (runReg OSI.empty hist) letters = .ok E) (hE' : P.run (runReg OSI.empty hist') letters' = .ok E')
    (h : Wick.contractExpr (runReg OSI.empty hist) cfg f E minr maxr = .ok e) (h' : Wick.contractExpr (runReg OSI.empty hist') cfg' f E' minr maxr = .ok e') :
    Lin.eval (v'.normalValueOf N) e' = Lin.eval (v.normalValueOf N) e := by
  rw [C93_generalized_partial hist hok h8 hn hv hcar hmc href hρ hN hP h2 hf hE h hmin hmax,
    C93_generalized_partial hist' hok' h8' hn' hv' (hop ▸ hcar) hmc' href' hρ (hop ▸ hN) hP h2' hf hE' h' hmin hmax, meaning_congr N S P hT]

/-- **C94**: a general space with the density matrix of a determinant, and without cumulants, may be replaced by occupied and unoccupied spaces. Missing: as in `C93_contract_partial`. -/
theorem C94_determinant_partial {α : Type} {hist hist' : List RegOp} (hok : allOk OSI.empty hist) (hok' : allOk OSI.empty hist')
    (h8 : (runReg OSI.empty hist).spaces.length ≤ 8) (h8' : (runReg OSI.empty hist').spaces.length ≤ 8) {v v' : OrbSystem Ω R B} (hop : v'.op = v.op)
    {letters letters' : α → Str} {S : α → Finset Ω} (hn : Names (runReg OSI.empty hist) v letters S) (hn' : Names (runReg OSI.empty hist') v' letters' S)
    (hv : v.Antisymmetric) (hv' : v'.Antisymmetric) (hcar : IsCAR v.op) {cfg cfg' : WickCfg} (hmc : 1 ≤ cfg.maxCumulant)
    {hole : Ω → Bool} (href : v.HasReference (runReg OSI.empty hist) cfg.maxCumulant (determinant hole)) (hvac : v'.Vacuum (runReg OSI.empty hist') hole)
    {P : GenProg α} (hT : ∀ lab ∈ P.labels, v'.T lab = v.T lab) (hP : P.NonZero) (h2 : P.NoTriple letters) (h2' : P.NoTriple letters')
    {f : Rational} (hf : Canon f) {minr maxr : Int} (hmin : minr ≤ 0) (hmax : P.numOps ≤ maxr) {E E' : OpExpr} {e e' : Expr}
    (hE : P.run (runReg OSI.empty hist) letters = .ok E) (hE' : P.run (runReg OSI.empty hist') letters' = .ok E')
    (h : Wick.contractExpr (runReg OSI.empty hist) cfg f E minr maxr = .ok e) (h' : Wick.contractExpr (runReg OSI.empty hist') cfg' f E' minr maxr = .ok e') :
    Lin.eval (v'.normalValue hole) e' = Lin.eval (v.normalValue hole) e := by
  have h1 := C93_generalized_partial hist hok h8 hn hv hcar hmc href ⟨by intros; simp [determinant], by intros; simp [determinant]⟩ (C94_normal_product hcar hole) hP h2 hf hE h hmin hmax
  have h2 := C93_contract_partial hist' hok' h8' hn' hv' (hop ▸ hcar) hvac hP h2' hf hE' h' hmin hmax
  rw [meaning_congr (T := v.T) _ S P hT] at h2
  rw [hop] at h2
  exact h2.trans h1.symm

omit [IsScalarTower ℚ R B] in
/-- **C72**, expectation values of operator expressions. Missing: products in which three alike contractions are possible. -/
theorem C72_expectation_expr_partial {o : OSI} {cfg : WickCfg} {E : OpExpr} (h8 : o.spaces.length ≤ 8)
    (hvo : ∀ q ∈ E, ∀ p ∈ q.1, p.Valid o.spaces.length) (h2 : ∀ q ∈ E, NoTriples o q.1) (hE : ∀ q ∈ E, Canon q.2) (hmc : 1 ≤ cfg.maxCumulant)
    {f : Rational} (hf : Canon f) {e : Expr} (h : Wick.contractExpr o cfg f E 0 0 = .ok e)
    {v : OrbSystem Ω R B} (hv : v.Antisymmetric) (hcar : IsCAR v.op) {ρ : Reference Ω R} (href : v.HasReference o cfg.maxCumulant ρ)
    {N : List (SQType × Ω) → B} (hN : IsGNO v.op ρ N) {φ : B →ₗ[R] R} (hφ : IsReferenceState v.op ρ φ) :
    (∀ p ∈ e, p.1.ops = []) ∧ Lin.eval v.scalarValue e = φ (toRat f • (E.map (fun q => toRat q.2 • (q.1.map (v.opValueOf N o.spaces.length)).prod)).sum) := by
  have hops : ∀ p ∈ e, p.1.ops = [] := by
    intro p hp
    have := Wick.C44_rank_window_expr h8 hvo hE hf h p hp
    exact List.length_eq_zero_iff.1 (by omega)
  refine ⟨hops, ?_⟩
  have hanti : AntisymmFun N := gno_antisymm hcar (Wick.antiCum hv href) hN
  have hq : ∀ (c : ℚ) (b : B), φ (c • b) = c • φ b := fun c b => map_rat_smul φ c b
  have hw := Wick.C53_wick_expr_partial h8 hvo h2 hE hf h (v := Wick.gsys v) hv (Wick.gsys_anticommute v)
  have he := Wick.gsys_eval v ⟨N, show N ∈ Wick.antiFun Ω R B from hanti⟩ e
  have hev : Lin.eval v.scalarValue e = φ (Lin.eval (v.normalValueOf N) e) := by
    clear h hw he
    unfold Lin.eval
    induction e with
    | nil => simp
    | cons p e ih =>
      rw [List.map_cons, List.sum_cons, List.map_cons, List.sum_cons, map_add, hq, ← ih (fun q hq => hops q (by simp [hq]))]
      congr 2
      unfold OrbSystem.scalarValue OrbSystem.normalValueOf sumOver
      rw [map_sum]
      apply Finset.sum_congr rfl
      intro σ _
      beta_reduce
      rw [hops p (by simp), map_smul, List.map_nil, gno_expectation hN hφ, smul_eq_mul]
      simp
  rw [hev, ← he, hw]
  clear hw h h2 he hev hops
  induction E with
  | nil => simp
  | cons q E ih =>
    rw [List.map_cons, List.sum_cons, map_add, map_add, ih (fun q hq => hvo q (by simp [hq])) (fun q hq => hE q (by simp [hq])),
      Wick.evalAt_rat, hq, Wick.wickSum_state href hmc ⟨N, show N ∈ Wick.antiFun Ω R B from hanti⟩ hN q.1 hφ, List.map_cons, List.sum_cons, smul_add, map_add,
      Wick.opValueOf_prod (hvo q (by simp)), smul_smul, smul_smul, mul_assoc, hq, hq]

/-- **C94**, full contractions: the value of the fully contracted program is the expectation value of the program in every state with the reference. Missing: as in `C93_contract_partial`. -/
theorem C94_expectation_partial {α : Type} {hist : List RegOp} (hok : allOk OSI.empty hist) (h8 : (runReg OSI.empty hist).spaces.length ≤ 8) {v : OrbSystem Ω R B}
    {letters : α → Str} {S : α → Finset Ω} (hn : Names (runReg OSI.empty hist) v letters S) (hv : v.Antisymmetric) (hcar : IsCAR v.op) {cfg : WickCfg} (hmc : 1 ≤ cfg.maxCumulant)
    {ρ : Reference Ω R} (hρ : ρ.Antisymmetric) (href : v.HasReference (runReg OSI.empty hist) cfg.maxCumulant ρ)
    {N : List (SQType × Ω) → B} (hN : IsGNO v.op ρ N) {φ : B →ₗ[R] R} (hφ : IsReferenceState v.op ρ φ) {P : GenProg α} (hP : P.NonZero) (h2 : P.NoTriple letters)
    {f : Rational} (hf : Canon f) {E : OpExpr} {e : Expr} (hE : P.run (runReg OSI.empty hist) letters = .ok E) (h : Wick.contractExpr (runReg OSI.empty hist) cfg f E 0 0 = .ok e) :
    (∀ p ∈ e, p.1.ops = []) ∧ Lin.eval v.scalarValue e = φ (toRat f • P.meaning v.T N S) := by
  have hsw : SwapsSign N := fun xs ty a b ys => (Wick.C72_gno_properties hcar hρ hN).1 xs (ty, a) (ty, b) ys
  obtain ⟨E', h1, hr⟩ := run_ok hist hok h8 hn hv hsw hP
  rw [hE] at h1
  cases h1
  have := C72_expectation_expr_partial h8 (fun q hq p hp => ((hr.words q hq).1 p hp).1) (run_noTriples hist hok h8 hn.nodup hn.alpha h2 hE)
    (built_wf hr.built).toOk.canon hmc hf h hv hcar href hN hφ
  refine ⟨this.1, ?_⟩
  rw [this.2, ← hr.value, valHomOf_expr]
  rfl

/-- **C94**: the fully contracted value of a program does not depend on how the orbitals are divided into occupied, unoccupied and general spaces. Missing: as in `C93_contract_partial`. -/
theorem C94_full_contraction_partial {α : Type} {hist hist' : List RegOp} (hok : allOk OSI.empty hist) (hok' : allOk OSI.empty hist')
    (h8 : (runReg OSI.empty hist).spaces.length ≤ 8) (h8' : (runReg OSI.empty hist').spaces.length ≤ 8) {v v' : OrbSystem Ω R B} (hop : v'.op = v.op)
    {letters letters' : α → Str} {S : α → Finset Ω} (hn : Names (runReg OSI.empty hist) v letters S) (hn' : Names (runReg OSI.empty hist') v' letters' S)
    (hv : v.Antisymmetric) (hv' : v'.Antisymmetric) (hcar : IsCAR v.op) {cfg cfg' : WickCfg} (hmc : 1 ≤ cfg.maxCumulant) (hmc' : 1 ≤ cfg'.maxCumulant)
    {ρ : Reference Ω R} (hρ : ρ.Antisymmetric) (href : v.HasReference (runReg OSI.empty hist) cfg.maxCumulant ρ) (href' : v'.HasReference (runReg OSI.empty hist') cfg'.maxCumulant ρ)
    {φ : B →ₗ[R] R} (hφ : IsReferenceState v.op ρ φ) {P : GenProg α} (hT : ∀ lab ∈ P.labels, v'.T lab = v.T lab) (hP : P.NonZero) (h2 : P.NoTriple letters) (h2' : P.NoTriple letters')
    {f : Rational} (hf : Canon f) {E E' : OpExpr} {e e' : Expr}
    (hE : P.run (runReg OSI.empty hist) letters = .ok E) (hE' : P.run (runReg OSI.empty hist') letters' = .ok E')
    (h : Wick.contractExpr (runReg OSI.empty hist) cfg f E 0 0 = .ok e) (h' : Wick.contractExpr (runReg OSI.empty hist') cfg' f E' 0 0 = .ok e') :
    Lin.eval v'.scalarValue e' = Lin.eval v.scalarValue e := by
  obtain ⟨N, hN, _⟩ := Wick.C72_gno_exists_unique v.op ρ
  rw [(C94_expectation_partial hok h8 hn hv hcar hmc hρ href hN hφ hP h2 hf hE h).2,
    (C94_expectation_partial hok' h8' hn' hv' (hop ▸ hcar) hmc' hρ href' (hop ▸ hN) (hop ▸ hφ) hP h2' hf hE' h').2, meaning_congr N S P hT]
end

/-! ## An example: four orbitals, a core, an active and a virtual space, against occupied and virtual orbitals -/

/-- core, active and virtual orbitals -/
def domCAV (s : Int) : Finset (Fin 4) := if s = 0 then {0} else if s = 1 then {1, 2} else {3}

/-- `four`, with the tensors of the determinant -/
noncomputable def fourDet : OrbSystem (Fin 4) ℚ (Module.End ℚ (FockSpace (Fin 4) ℚ)) := ⟨domCAV, refT (determinant hole4) (four domCAV).T, fockOp ℚ hole4⟩

/-- `gen_op("H", 1, all, all) @ gen_op("T", 1, all, all)` -/
def progAll : GenProg Unit := .mul (.gen "H".toList 1 () ()) (.gen "T".toList 1 () ())

theorem namesCAV : Names (runReg OSI.empty mrHistory) fourDet (fun _ => "cav".toList) (fun _ : Unit => Finset.univ) where
  nodup := by decide +kernel
  alpha := by decide +kernel
  orbs := by
    intro a
    show ("cav".toList).toFinset.biUnion (fun c => match (runReg OSI.empty mrHistory).labelToSpace c with | .ok s => domCAV s | .error _ => ∅) = Finset.univ
    decide +kernel
  disjoint := by
    intro s s' hs hs' hne
    have hs : s < 3 := hs
    have hs' : s' < 3 := hs'
    show ∀ x ∈ domCAV s, x ∉ domCAV s'
    interval_cases s <;> interval_cases s' <;> first | exact absurd rfl hne | decide

theorem namesOV : Names (runReg OSI.empty Wick.srHistory) (four dom2) (fun _ => "ov".toList) (fun _ : Unit => Finset.univ) where
  nodup := by decide +kernel
  alpha := by decide +kernel
  orbs := by
    intro a
    show ("ov".toList).toFinset.biUnion (fun c => match (runReg OSI.empty Wick.srHistory).labelToSpace c with | .ok s => dom2 s | .error _ => ∅) = Finset.univ
    decide +kernel
  disjoint := names2.disjoint

theorem det_anti : (determinant hole4 : Reference (Fin 4) ℚ).Antisymmetric := ⟨by intros; simp [determinant], by intros; simp [determinant]⟩

theorem fourDet_reference : fourDet.Antisymmetric ∧ fourDet.HasReference (runReg OSI.empty mrHistory) 100 (determinant hole4) ∧ ∀ lab ∈ progAll.labels, fourDet.T lab = (four dom2).T lab := by
  have ht : ∀ s : Nat, s < 3 → ((s = 0 ∧ (runReg OSI.empty mrHistory).spaceType s = .ok .occupied) ∨ (s = 1 ∧ (runReg OSI.empty mrHistory).spaceType s = .ok .general) ∨
      (s = 2 ∧ (runReg OSI.empty mrHistory).spaceType s = .ok .unoccupied)) := by
    intro s hs
    interval_cases s <;> decide +kernel
  refine ⟨Wick.refT_anti det_anti (four_anti domCAV), ⟨namesCAV.disjoint, ?_, ?_, ?_, ?_, ?_, ?_, ?_, ?_⟩, ?_⟩
  · intro s hs h p hp q hq
    rcases ht s hs with ⟨rfl, h'⟩ | ⟨rfl, h'⟩ | ⟨rfl, h'⟩
    · have hp : p ∈ domCAV 0 := hp
      have : ∀ p ∈ domCAV 0, hole4 p = true := by decide
      simp [determinant, this p hp]
    · rw [h'] at h; cases h
    · rw [h'] at h; cases h
  · intro s hs h p hp q hq
    rcases ht s hs with ⟨rfl, h'⟩ | ⟨rfl, h'⟩ | ⟨rfl, h'⟩
    · rw [h'] at h; cases h
    · rw [h'] at h; cases h
    · have hp : p ∈ domCAV 2 := hp
      have : ∀ p ∈ domCAV 2, hole4 p = false := by decide
      simp [determinant, this p hp]
  · intros; rfl
  · intros; rfl
  · intro s _ _ ps qs h h2 _ _
    exact Wick.refT_lambda _ _ h h2
  · intro s s' hs hs' hne p hp q hq
    show (if p = q ∧ hole4 p = true then (1 : ℚ) else 0) = 0
    rw [if_neg]
    rintro ⟨rfl, _⟩
    exact namesCAV.disjoint s s' hs hs' hne p hp hq
  · intros; rfl
  · intros; rfl
  · intro lab hlab
    have hl : lab = "H".toList ∨ lab = "T".toList := by simpa [progAll, GenProg.labels] using hlab
    funext l u
    show refT (determinant hole4) (four domCAV).T lab l u = _
    have hk : ∀ k : Nat, lab ≠ "lambda".toList ++ intStr k := by
      intro k h
      have := congrArg List.head? h
      rcases hl with rfl | rfl <;> simp at this
    unfold refT
    rw [if_neg (by rcases hl with rfl | rfl <;> decide), if_neg (by rcases hl with rfl | rfl <;> decide), if_neg (fun h => hk _ h.1)]
    rfl

-- all hypotheses hold: with an active space there are more terms, with `gamma1` and `eta1`, of the same value
example : ∃ E E' e e', progAll.run (runReg OSI.empty mrHistory) (fun _ => "cav".toList) = .ok E ∧ progAll.run (runReg OSI.empty Wick.srHistory) (fun _ => "ov".toList) = .ok E' ∧
    Wick.contractExpr (runReg OSI.empty mrHistory) {} (Rational.ofInt 1) E 0 4 = .ok e ∧ Wick.contractExpr (runReg OSI.empty Wick.srHistory) {} (Rational.ofInt 1) E' 0 4 = .ok e' ∧
    e'.length < e.length ∧ Lin.eval ((four dom2).normalValue hole4) e' = Lin.eval (fourDet.normalValue hole4) e := by
  obtain ⟨x, hx, h2⟩ := Wick.ok_of_check (x := progAll.run (runReg OSI.empty mrHistory) (fun _ => "cav".toList) >>= fun E => Wick.contractExpr (runReg OSI.empty mrHistory) {} (Rational.ofInt 1) E 0 4 >>= fun e => pure (E, e))
    (fun q => decide (40 < q.2.length)) (by decide +kernel)
  obtain ⟨E, hE, hx⟩ := bind_ok' hx
  obtain ⟨e, he, hx⟩ := bind_ok' hx
  cases hx
  obtain ⟨x', hx', h2'⟩ := Wick.ok_of_check (x := progAll.run (runReg OSI.empty Wick.srHistory) (fun _ => "ov".toList) >>= fun E => Wick.contractExpr (runReg OSI.empty Wick.srHistory) {} (Rational.ofInt 1) E 0 4 >>= fun e => pure (E, e))
    (fun q => decide (q.2.length ≤ 40)) (by decide +kernel)
  obtain ⟨E', hE', hx'⟩ := bind_ok' hx'
  obtain ⟨e', he', hx'⟩ := bind_ok' hx'
  cases hx'
  refine ⟨E, E', e, e', hE, hE', he, he', ?_, ?_⟩
  · have := of_decide_eq_true h2; have := of_decide_eq_true h2'; simp only at *; omega
  · exact C94_determinant_partial (by refine ⟨?_, ?_, ?_, trivial⟩ <;> decide +kernel) (by refine ⟨?_, ?_, trivial⟩ <;> decide +kernel) (by decide +kernel) (by decide +kernel)
      (v := fourDet) (v' := four dom2) rfl namesCAV namesOV fourDet_reference.1 (four_anti dom2) (fock_car hole4) (by decide) fourDet_reference.2.1 vac2 (P := progAll) (fun l hl => (fourDet_reference.2.2 l hl).symm)
      ⟨trivial, trivial⟩ (.of_rank (by decide)) (.of_rank (by decide)) (Rational.canon_ofInt 1) le_rfl (by decide) hE hE' he he'
end Wicked
