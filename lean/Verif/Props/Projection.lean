import Verif.Proofs.Projection
import Verif.Props.PyFunction
import Verif.Props.Antisym
/-! # C84: the generated residuals are projections on excited determinants -/
namespace Wicked
open Equiv Rational

section
variable {Ω R B : Type} [Inhabited Ω] [DecidableEq Ω] [CommRing R] [Ring B] [Algebra R B] {op : SQType → Ω → B} {hole : Ω → Bool} {φ : B →ₗ[R] R}

omit [Inhabited Ω] [DecidableEq Ω] in
theorem map_sumTuples (ds : List (Finset Ω)) (F : List Ω → B) (ψ : B →ₗ[R] R) : ψ (sumTuples ds F) = sumTuples ds (fun l => ψ (F l)) := by
  induction ds generalizing F with
  | nil => rfl
  | cons d ds ih =>
    simp only [sumTuples, map_sum]
    exact Finset.sum_congr rfl (fun a _ => ih _)

open Classical in
theorem sumTuples_coincidences (ds : List (Finset Ω)) (u : List Ω) (F : List Ω → R) :
    sumTuples ds (fun w => F w * coincidences R u w) =
      ∑ σ : Perm (Fin u.length), ((Perm.sign σ : Int) : R) * if List.Forall₂ (· ∈ ·) (permuted σ u) ds then F (permuted σ u) else 0 := by
  simp only [coincidences, Finset.mul_sum]
  rw [sumTuples_finset_sum]
  apply Finset.sum_congr rfl
  intro σ _
  have : (fun w => F w * (((Perm.sign σ : Int) : R) * if w = permuted σ u then 1 else 0)) =
      fun w => ((Perm.sign σ : Int) : R) • (F w * if w = permuted σ u then 1 else 0) := by
    funext w; rw [smul_eq_mul]; ring
  rw [this, sumTuples_smul, smul_eq_mul]
  congr 1
  by_cases h : List.Forall₂ (· ∈ ·) (permuted σ u) ds
  · rw [if_pos h, sumTuples_delta ds _ h]
  · rw [if_neg h]
    refine (sumTuples_congr_mem (G := fun _ => 0) (fun w hw => ?_)).trans (sumTuples_zero ds)
    rw [if_neg (fun e : w = permuted σ u => h (e ▸ hw)), mul_zero]

open Classical in
theorem bra_keyOperator (hcar : IsCAR op) (hφ : IsVacuumExpectation op hole φ) {u l : List Ω} (hu : ∀ x ∈ u, hole x = true) (hl : ∀ x ∈ l, hole x = false)
    (dom : Char → Finset Ω) (key : Str) (r : List Ω → R) :
    φ (bra op u l * keyOperator dom (normalProd hole op) key r) =
      ∑ σ : Perm (Fin u.length), ∑ τ : Perm (Fin l.length), ((Perm.sign σ : Int) : R) * ((Perm.sign τ : Int) : R) *
        if List.Forall₂ (· ∈ ·) (permuted σ u) ((keyUpper key).map dom) ∧ List.Forall₂ (· ∈ ·) (permuted τ l) ((keyLower key).map dom) then r (permuted σ u ++ permuted τ l) else 0 := by
  have h1 : φ (bra op u l * keyOperator dom (normalProd hole op) key r) = (φ ∘ₗ LinearMap.mulLeft R (bra op u l)) (keyOperator dom (normalProd hole op) key r) := rfl
  rw [h1, keyOperator, map_sumTuples]
  have h3 : ∀ u' l' : List Ω, (φ ∘ₗ LinearMap.mulLeft R (bra op u l)) (r (u' ++ l') • normalProd hole op (l'.map (fun x => (.creation, x)) ++ u'.reverse.map (fun x => (.annihilation, x)))) =
      r (u' ++ l') * (coincidences R u u' * coincidences R l l') := by
    intro u' l'
    rw [map_smul, smul_eq_mul, ← braket hcar hφ hu hl]
    rfl
  simp only [map_sumTuples, h3]
  have h2 : ∀ u', sumTuples ((keyLower key).map dom) (fun l' => r (u' ++ l') * (coincidences R u u' * coincidences R l l')) =
      (sumTuples ((keyLower key).map dom) (fun l' => r (u' ++ l') * coincidences R l l')) * coincidences R u u' := by
    intro u'
    rw [mul_comm, ← smul_eq_mul, ← sumTuples_smul]
    congr 1
    funext l'
    rw [smul_eq_mul]; ring
  simp only [h2]
  rw [sumTuples_coincidences]
  apply Finset.sum_congr rfl
  intro σ _
  rw [sumTuples_coincidences]
  by_cases h : List.Forall₂ (· ∈ ·) (permuted σ u) ((keyUpper key).map dom)
  · rw [if_pos h, Finset.mul_sum]
    apply Finset.sum_congr rfl
    intro τ _
    rw [mul_assoc]
    simp only [h, true_and]
  · rw [if_neg h, mul_zero]
    symm
    apply Finset.sum_eq_zero
    intro τ _
    rw [if_neg (fun e => h e.1), mul_zero]

theorem getD_mem_zip {dom : Char → Finset Ω} {u : List Ω} {U : Str} (h : List.Forall₂ (· ∈ ·) u (U.map dom)) {k : Nat} (hk : k < u.length) :
    ∃ c, U[k]? = some c ∧ u.getD k default ∈ dom c := by
  have hl := h.length_eq
  rw [List.length_map] at hl
  have := List.Forall₂.get h hk (by rw [List.length_map]; omega)
  refine ⟨U[k], List.getElem?_eq_getElem (by omega), ?_⟩
  simpa [List.getD_eq_getElem?_getD, hk] using this

/-- different spaces have no orbital in common: orbitals tell their spaces -/
theorem letters_of_permuted {dom : Char → Finset Ω} {labels : Str} (hd : ∀ c ∈ labels, ∀ c' ∈ labels, c ≠ c' → ∀ x ∈ dom c, x ∉ dom c') {u : List Ω} {U U' : Str}
    (hU : ∀ c ∈ U, c ∈ labels) (hU' : ∀ c ∈ U', c ∈ labels) (h : List.Forall₂ (· ∈ ·) u (U.map dom)) (σ : Perm (Fin u.length)) :
    List.Forall₂ (· ∈ ·) (permuted σ u) (U'.map dom) ↔ U'.length = u.length ∧ ∀ k : Fin u.length, U'[(k : Nat)]? = U[(σ k : Nat)]? := by
  constructor
  · intro h'
    have hlen := h'.length_eq
    rw [permuted_length, List.length_map] at hlen
    refine ⟨hlen.symm, fun k => ?_⟩
    obtain ⟨c, hc, hm⟩ := getD_mem_zip h (σ k).2
    obtain ⟨c', hc', hm'⟩ := getD_mem_zip h' (k := k) (by rw [permuted_length]; exact k.2)
    have he : (permuted σ u).getD k default = u.getD (σ k) default := by
      simp [permuted, List.getD_eq_getElem?_getD]
    rw [he] at hm'
    rw [hc, hc']
    by_contra hne
    exact hd c (hU c (List.mem_of_getElem? hc)) c' (hU' c' (List.mem_of_getElem? hc')) (fun e => hne (by rw [e])) _ hm hm'
  · rintro ⟨hlen, h'⟩
    rw [List.forall₂_iff_get]
    refine ⟨by rw [permuted_length, List.length_map, hlen], fun i h1 h2 => ?_⟩
    rw [permuted_length] at h1
    obtain ⟨c, hc, hm⟩ := getD_mem_zip h (σ ⟨i, h1⟩).2
    have := h' ⟨i, h1⟩
    rw [hc] at this
    have h3 : U'[i] = c := by
      rw [List.getElem?_eq_getElem (by omega)] at this
      exact Option.some.inj this
    simp only [List.get_eq_getElem, List.getElem_map, h3]
    have he : (permuted σ u)[i] = u.getD (σ ⟨i, h1⟩) default := by
      simp [permuted]
    rw [he]; exact hm

theorem perm_of_permuted {U U' : Str} {n : Nat} (hU : U.length = n) (hU' : U'.length = n) (σ : Perm (Fin n)) (h : ∀ k : Fin n, U'[(k : Nat)]? = U[(σ k : Nat)]?) : U'.Perm U := by
  subst hU
  have : U' = permuted σ U := by
    apply List.ext_getElem
    · rw [permuted_length, hU']
    intro i h1 h2
    have h3 := h ⟨i, by omega⟩
    rw [List.getElem?_eq_getElem h1, List.getElem?_eq_getElem (σ ⟨i, _⟩).2] at h3
    simp only [permuted, List.getElem_ofFn, List.getD_eq_getElem?_getD, List.getElem?_eq_getElem (σ ⟨i, _⟩).2, Option.getD_some]
    exact Option.some.inj h3
  rw [this]
  exact permuted_perm U σ

theorem repeatLabels_perm {o : OSI} (hI : RegInv o) {n n' : Nat → Nat} (h : (repeatLabels o n).Perm (repeatLabels o n')) : repeatLabels o n = repeatLabels o n' := by
  apply repeatLabels_congr
  intro s hs
  have hx : o.spaces[s]? = some o.spaces[s] := List.getElem?_eq_getElem hs
  rw [← count_repeatLabels hI.labels n hx, h.count_eq, count_repeatLabels hI.labels _ hx]

theorem spaceKey_split {o : OSI} (hb : ∀ s ∈ o.spaces, s.label ≠ '|') (n k : Nat → Nat) : keyUpper (spaceKey o n k) = repeatLabels o n ∧ keyLower (spaceKey o n k) = repeatLabels o k := by
  have hn : '|' ∉ repeatLabels o n := fun hm => by
    obtain ⟨x, hx, hc⟩ := mem_repeatLabels hm
    exact hb x hx hc
  have hs : breakOn ['|'] (spaceKey o n k) = some (repeatLabels o n, (repeatLabels o k).reverse) := by
    have := breakOn_app (c0 := '|') (sep := []) (a := repeatLabels o n) (b := (repeatLabels o k).reverse) hn
    rw [List.append_assoc] at this
    exact this
  unfold keyUpper keyLower
  rw [hs]
  simp

/-- **C84.** Different spaces have no orbital in common, and `m` has an array for every key (all keys different): the matrix element of the operator that the arrays stand for,
between the vacuum and the determinant excited from the occupied orbitals `u` to the unoccupied orbitals `l`, is the antisymmetrised element `[u, l]` of the array for the spaces of `u` and `l`, and zero if
there is no such array. -/
theorem C84_projection (hist : List RegOp) (hcar : IsCAR op) (hφ : IsVacuumExpectation op hole φ) (dom : Char → Finset Ω) :
    let o := runReg OSI.empty hist
    (∀ s ∈ o.spaces, s.label ≠ '|') → (∀ s ∈ o.spaces, ∀ s' ∈ o.spaces, s.label ≠ s'.label → ∀ x ∈ dom s.label, x ∉ dom s'.label) →
    ∀ (m : List (Str × (List Ω → R))), (m.map Prod.fst).Nodup → (∀ q ∈ m, ∃ n k, q.1 = spaceKey o n k) →
    ∀ (n k : Nat → Nat) (u l : List Ω), List.Forall₂ (· ∈ ·) u ((repeatLabels o n).map dom) → List.Forall₂ (· ∈ ·) l ((repeatLabels o k).map dom) →
    (∀ x ∈ u, hole x = true) → (∀ x ∈ l, hole x = false) →
    (∀ r, (spaceKey o n k, r) ∈ m → φ (bra op u l * (m.map (fun q => keyOperator dom (normalProd hole op) q.1 q.2)).sum) = antisymmetrized (repeatLabels o n) (repeatLabels o k) r u l) ∧
    (spaceKey o n k ∉ m.map Prod.fst → φ (bra op u l * (m.map (fun q => keyOperator dom (normalProd hole op) q.1 q.2)).sum) = 0) := by
  classical
  intro o hb hd m hnd hkeys n k u l hu hl hhu hhl
  have hI : RegInv o := regInv_run hist _ regInv_empty
  have hd' : ∀ c ∈ o.spaces.map (·.label), ∀ c' ∈ o.spaces.map (·.label), c ≠ c' → ∀ x ∈ dom c, x ∉ dom c' := by
    intro c hc c' hc'
    obtain ⟨s, hs, rfl⟩ := List.mem_map.1 hc
    obtain ⟨s', hs', rfl⟩ := List.mem_map.1 hc'
    exact hd s hs s' hs'
  have hlab : ∀ n, ∀ c ∈ repeatLabels o n, c ∈ o.spaces.map (·.label) := fun n c hc => by
    obtain ⟨s, hs, e⟩ := mem_repeatLabels hc
    exact List.mem_map.2 ⟨s, hs, e⟩
  have hlu : (repeatLabels o n).length = u.length := by have := hu.length_eq; rw [List.length_map] at this; exact this.symm
  have hll : (repeatLabels o k).length = l.length := by have := hl.length_eq; rw [List.length_map] at this; exact this.symm
  -- another key does not contribute
  have other : ∀ (n' k' : Nat → Nat) (r : List Ω → R), spaceKey o n' k' ≠ spaceKey o n k → φ (bra op u l * keyOperator dom (normalProd hole op) (spaceKey o n' k') r) = 0 := by
    intro n' k' r hne
    rw [bra_keyOperator hcar hφ hhu hhl]
    apply Finset.sum_eq_zero; intro σ _
    apply Finset.sum_eq_zero; intro τ _
    rw [if_neg, mul_zero]
    rw [(spaceKey_split hb n' k').1, (spaceKey_split hb n' k').2]
    rintro ⟨h1, h2⟩
    rw [letters_of_permuted hd' (hlab n) (hlab n') hu] at h1
    rw [letters_of_permuted hd' (hlab k) (hlab k') hl] at h2
    apply hne
    rw [spaceKey, spaceKey, repeatLabels_perm hI (perm_of_permuted hlu h1.1 σ h1.2), repeatLabels_perm hI (perm_of_permuted hll h2.1 τ h2.2)]
  have same : ∀ r : List Ω → R, φ (bra op u l * keyOperator dom (normalProd hole op) (spaceKey o n k) r) = antisymmetrized (repeatLabels o n) (repeatLabels o k) r u l := by
    intro r
    rw [bra_keyOperator hcar hφ hhu hhl, antisymmetrized, (spaceKey_split hb n k).1, (spaceKey_split hb n k).2, Finset.sum_filter]
    apply Finset.sum_congr rfl
    intro σ _
    have e1 : List.Forall₂ (· ∈ ·) (permuted σ u) ((repeatLabels o n).map dom) ↔ KeepsLetters (repeatLabels o n) σ := by
      rw [letters_of_permuted hd' (hlab n) (hlab n) hu]
      exact ⟨fun h i => (h.2 i).symm, fun h => ⟨hlu, fun i => (h i).symm⟩⟩
    by_cases hσ : KeepsLetters (repeatLabels o n) σ
    · rw [if_pos hσ, Finset.sum_filter]
      apply Finset.sum_congr rfl
      intro τ _
      have e2 : List.Forall₂ (· ∈ ·) (permuted τ l) ((repeatLabels o k).map dom) ↔ KeepsLetters (repeatLabels o k) τ := by
        rw [letters_of_permuted hd' (hlab k) (hlab k) hl]
        exact ⟨fun h i => (h.2 i).symm, fun h => ⟨hll, fun i => (h i).symm⟩⟩
      by_cases hτ : KeepsLetters (repeatLabels o k) τ
      · rw [if_pos hτ, if_pos ⟨e1.2 hσ, e2.2 hτ⟩]
      · rw [if_neg hτ, if_neg (fun h => hτ (e2.1 h.2)), mul_zero]
    · rw [if_neg hσ]
      apply Finset.sum_eq_zero
      intro τ _
      rw [if_neg (fun h => hσ (e1.1 h.1)), mul_zero]
  have hsum : ∀ (m : List (Str × (List Ω → R))), (∀ q ∈ m, ∃ n k, q.1 = spaceKey o n k) → spaceKey o n k ∉ m.map Prod.fst →
      φ (bra op u l * (m.map (fun q => keyOperator dom (normalProd hole op) q.1 q.2)).sum) = 0 := by
    intro m
    induction m with
    | nil => intro _ _; simp
    | cons q m ih =>
      intro hk hn
      rw [List.map_cons, List.mem_cons, not_or] at hn
      obtain ⟨n', k', e⟩ := hk q (by simp)
      rw [List.map_cons, List.sum_cons, mul_add, map_add, ih (fun q hq => hk q (by simp [hq])) hn.2, add_zero, e]
      exact other n' k' _ (fun h => hn.1 (by rw [e, h]))
  refine ⟨fun r hr => ?_, hsum m hkeys⟩
  obtain ⟨a, b, rfl⟩ := List.append_of_mem hr
  rw [List.map_append, List.map_cons] at hnd
  have hnd2 := List.nodup_append.1 hnd
  have ha : spaceKey o n k ∉ a.map Prod.fst := fun h => hnd2.2.2 _ h _ (by simp) rfl
  have hb' : spaceKey o n k ∉ b.map Prod.fst := (List.nodup_cons.1 hnd2.2.1).1
  rw [List.map_append, List.sum_append, List.map_cons, List.sum_cons, mul_add, mul_add, map_add, map_add,
    hsum a (fun q hq => hkeys q (by simp [hq])) ha, hsum b (fun q hq => hkeys q (by simp [hq])) hb', zero_add, add_zero]
  exact same r
end

/-! ## rank windows -/
namespace Wick
open NP
section
variable {Ω R B : Type} [Inhabited Ω] [DecidableEq Ω] [CommRing R] [Ring B] [Algebra R B] [Algebra ℚ B]

theorem leftOver_length {con : Finset Slot → Prop} {L : List Slot} {S : Finset (Finset Slot)} (hn : L.Nodup) (hS : S ∈ pairSets con L) :
    ((leftOver L S).length : Int) = (L.length : Int) - ((∑ b ∈ S, b.card : Nat) : Int) := by
  have hp := flat_perm hn hS
  have h1 := hp.length_eq
  rw [List.length_append, List.length_flatMap] at h1
  have h2 : (S.toList.map (fun b => (prOrder L b).length)) = S.toList.map Finset.card :=
    List.map_congr_left (fun b hb => prOrder_card hn ((mem_pairSets.1 hS).1 b (Finset.mem_toList.1 hb)))
  rw [h2, Finset.sum_map_toList] at h1
  rw [← h1]
  push_cast
  omega

theorem wickSum_functional {v : OrbSystem Ω R B} {o : OSI} {hole : Ω → Bool} (hcar : IsCAR v.op) (hvac : v.Vacuum o hole) (m : Int) (ops : OperatorProduct)
    {ψ : B →ₗ[R] R} {minr maxr : Int} (hψ : ∀ w : List (SQType × Ω), ¬ (minr ≤ (w.length : Int) ∧ (w.length : Int) ≤ maxr) → ψ (normalProd hole v.op w) = 0) :
    ψ ((wickSum (wsys v hole) o m ops minr maxr (fun _ => 1) : Module.End R (B × B)) 1).1 =
      ψ (ops.map (opSum v (normalProd hole v.op) o.spaces.length 0)).prod := by
  rw [← wickSum_product hcar hvac m ops (min_le_right minr 0) (le_max_right maxr ((slots o.spaces.length ops).length : Int))]
  unfold wickSum
  rw [apply_sumOver, apply_sumOver]
  unfold sumOver
  rw [map_sum, map_sum]
  apply Finset.sum_congr rfl
  intro σ _
  simp only [one_smul, LinearMap.smul_apply, Prod.smul_fst, map_smul, LinearMap.sum_apply, Prod.fst_sum, map_sum]
  congr 1
  have hn := nodup_slots o.spaces.length ops
  apply Finset.sum_subset
  · intro S hS
    rw [mem_schemes] at hS ⊢
    obtain ⟨h1, h2, h3, h4, h5⟩ := hS
    exact ⟨h1, h2, h3, by omega, by omega⟩
  · intro S hS hS'
    rw [mem_schemes] at hS hS'
    obtain ⟨h1, h2, h3, h4, h5⟩ := hS
    have hlen := leftOver_length (con := IsContraction o m) hn (mem_pairSets.2 ⟨h1, h2, h3⟩)
    unfold schemeTerm
    rw [LinearMap.smul_apply, Prod.smul_fst, map_smul]
    have e := ops_apply v hole ((leftOver (slots o.spaces.length ops) S).map (fun y => (y.type, (fun i => if h : i ∈ (slots o.spaces.length ops).toFinset then σ ⟨i, h⟩ else default) y)))
    rw [List.map_map] at e
    have e' := congrArg Prod.fst e
    rw [nprod_fst hcar] at e'
    refine Eq.trans (congrArg _ (congrArg ψ e')) ?_
    rw [hψ _ (by
      rw [List.length_map, hlen]
      exact fun h => hS' ⟨h1, h2, h3, h.1, h.2⟩), smul_zero]

/-- **C84**, rank windows: a linear functional that vanishes on normal products outside the window does not see what `contract` leaves out: it has the same value on the result
as on the operator expression itself. -/
theorem C84_window_partial [Algebra ℚ R] {o : OSI} {cfg : WickCfg} {E : OpExpr} (h8 : o.spaces.length ≤ 8)
    (hvo : ∀ q ∈ E, ∀ p ∈ q.1, p.Valid o.spaces.length) (h2 : ∀ q ∈ E, NoTriples o q.1) (hE : ∀ q ∈ E, Canon q.2)
    {f : Rational} (hf : Canon f) {minr maxr : Int} {e : Expr} (h : contractExpr o cfg f E minr maxr = .ok e)
    {v : OrbSystem Ω R B} (hv : v.Antisymmetric) (hcar : IsCAR v.op) {hole : Ω → Bool} (hvac : v.Vacuum o hole)
    {ψ : B →ₗ[R] R} (hψ : ∀ w : List (SQType × Ω), ¬ (minr ≤ (w.length : Int) ∧ (w.length : Int) ≤ maxr) → ψ (normalProd hole v.op w) = 0) :
    ψ (Lin.eval (v.normalValue hole) e) = ψ (toRat f • (E.map (fun q => toRat q.2 • (q.1.map (v.opValue hole o.spaces.length)).prod)).sum) := by
  have hw := C53_wick_expr_partial h8 hvo h2 hE hf h (v := wsys v hole) hv (wsys_anticommute hcar hole)
  rw [← eval_apply hcar hole, hw]
  clear hw h h2
  have hq : ∀ (c : ℚ) (b : B), ψ (c • b) = c • ψ b := fun c b => map_rat_smul ψ c b
  induction E with
  | nil => simp
  | cons q E ih =>
    rw [List.map_cons, List.sum_cons, LinearMap.add_apply, Prod.fst_add, map_add,
      ih (fun q hq => hvo q (by simp [hq])) (fun q hq => hE q (by simp [hq])),
      LinearMap.smul_apply, Prod.smul_fst, hq, wickSum_functional hcar hvac _ q.1 hψ, List.map_cons, List.sum_cons, smul_add, map_add,
      opValue_prod (hvo q (by simp)), smul_smul, smul_smul, hq, mul_assoc, hq]
end
section
variable {Ω R A : Type} [Inhabited Ω] [DecidableEq Ω] [CommRing R] [Ring A] [Algebra R A] [Algebra ℚ R] [Algebra ℚ A] [IsScalarTower ℚ R A]

/-- **C84.** The whole chain: spaces registered as occupied and unoccupied, an operator expression contracted within a window of ranks, the many-body equations compiled and the
lines executed: for every key whose number of operators lies in the window, and all occupied orbitals `u` and unoccupied orbitals `l` of its spaces, the array that is
computed, antisymmetrised, is the matrix element of the operator expression between the vacuum and the determinant excited from `u` to `l`; it is zero if there are no equations for
the key. Missing: coefficients that are no multiples of `10^-9` (printed rounded) and products with three alike contractions (C50). -/
theorem C84_program_partial (hist : List RegOp) {fmt : Rational → Str} {label : Str} {cfg : WickCfg} {E : OpExpr} {f : Rational} {minr maxr : Int} {e : Expr} :
    let o := runReg OSI.empty hist
    (∀ s ∈ o.spaces, ∀ name ∈ s.indices, ∀ (c : Char) (n : Int), name ≠ c :: '_' :: '{' :: (intStr n ++ ['}'])) →
    (∀ s ∈ o.spaces, isAlpha s.label = true) → (∀ c ∈ label, isWord c = true) → PrintsNine fmt →
    o.spaces.length ≤ 8 → (∀ q ∈ E, q.1 ≠ [] ∧ Canon q.2 ∧ ∀ p ∈ q.1, p.Valid o.spaces.length ∧ ∀ c ∈ p.label, isWord c = true) → Canon f →
    contractExpr o cfg f E minr maxr = .ok e → (∀ p ∈ e, p.1.allIdx.toFinset.card ≤ 52 ∧ p.2.den ∣ 10 ^ 9) → (∀ q ∈ E, NoTriples o q.1) →
    ∀ (v : OrbSystem Ω R A) (arr : Str → Str → List Ω → R) (dom : Char → Finset Ω) (hole : Ω → Bool) (φ : A →ₗ[R] R), v.Antisymmetric → IsCAR v.op → v.Vacuum o hole →
    IsVacuumExpectation v.op hole φ →
    (∀ p ∈ e, ∀ y ∈ p.1.tensors, ∀ l u, l.length = y.lower.length → u.length = y.upper.length → arr y.label (spaceText o y) (u ++ l) = v.T y.label l u) →
    (∀ (n : Nat) s, o.spaces[n]? = some s → dom s.label = v.dom n) →
    ∃ m, e.toManybody o label = .ok m ∧ ∃ arrays : Str → List Ω → R,
      (∀ q ∈ m, ∃ lines, q.2.mapM (m := Except Fault) (fun q => q.compileEinsum o fmt) = .ok lines ∧
        Runs arr dom lines (fun _ _ => 0) (fun name x => if name = label ++ keyUpper q.1 ++ keyLower q.1 then arrays q.1 x else 0)) ∧
      ∀ (n k : Nat → Nat) (u l : List Ω), List.Forall₂ (· ∈ ·) u ((repeatLabels o n).map dom) → List.Forall₂ (· ∈ ·) l ((repeatLabels o k).map dom) →
        (∀ x ∈ u, hole x = true) → (∀ x ∈ l, hole x = false) → minr ≤ u.length + l.length → u.length + l.length ≤ maxr →
        φ (bra v.op u l * (toRat f • (E.map (fun q => toRat q.2 • (q.1.map (v.opValue hole o.spaces.length)).prod)).sum)) =
          if spaceKey o n k ∈ m.map Prod.fst then antisymmetrized (repeatLabels o n) (repeatLabels o k) (arrays (spaceKey o n k)) u l else 0 := by
  intro o hgen hal hlab hfmt h8 hE hf hc hb h2 v arr dom hole φ hv hcar hvac hφ harr hdom
  obtain ⟨m, hm, arrays, h1, h3⟩ := C78_contract_program_partial hist hgen hal hlab hfmt h8 hE hf hc hb v arr dom (normalProd hole v.op) harr hdom
  refine ⟨m, hm, arrays, h1, fun n k u l hu hl hhu hhl hmin hmax => ?_⟩
  have hbar : ∀ s ∈ o.spaces, s.label ≠ '|' := fun s hs h => absurd (hal s hs) (by rw [h]; decide)
  have hd : ∀ s ∈ o.spaces, ∀ s' ∈ o.spaces, s.label ≠ s'.label → ∀ x ∈ dom s.label, x ∉ dom s'.label := by
    intro s hs s' hs' hne x hx hx'
    obtain ⟨i, hi, ei⟩ := List.mem_iff_getElem.1 hs
    obtain ⟨j, hj, ej⟩ := List.mem_iff_getElem.1 hs'
    rw [hdom i s (by rw [List.getElem?_eq_getElem hi, ei])] at hx
    rw [hdom j s' (by rw [List.getElem?_eq_getElem hj, ej])] at hx'
    exact hvac.disjoint i j hi hj (fun h => hne (by subst h; rw [← ei, ← ej])) x hx hx'
  have hreg : ∀ p ∈ e, OpsRegistered o p.1 := by
    intro p hp a ha
    obtain ⟨q, hq, e', hc', p', hp', he⟩ := contractExpr_mem hc p hp
    have := (contract_compilable h8 (fun r hr => ((hE q hq).2.2 r hr).1) (hE q hq).1 (fun r hr => ((hE q hq).2.2 r hr).2) (canon_mul hf (hE q hq).2.1) hc' hp' (by
      rw [he]; exact (hb p hp).1)).registered
    rw [he] at this
    have := this a.index (List.mem_append_left _ (List.mem_map_of_mem ha))
    unfold Index.Registered at this
    unfold OSI.numSpaces
    omega
  obtain ⟨m', hm', hnd, hk, _⟩ := C55_partition label hreg
  rw [hm] at hm'
  injection hm' with hm'
  subst hm'
  have hkeys : ∀ q ∈ m.map (fun q => (q.1, arrays q.1)), ∃ n k, q.1 = spaceKey o n k := by
    intro q hq
    obtain ⟨q', hq', rfl⟩ := List.mem_map.1 hq
    obtain ⟨p, _, e⟩ := (hk q'.1).1 (List.mem_map_of_mem hq')
    exact ⟨_, _, e.symm⟩
  have hfst : (m.map (fun q => (q.1, arrays q.1))).map Prod.fst = m.map Prod.fst := by rw [List.map_map]; rfl
  obtain ⟨p1, p2⟩ := _root_.Wicked.C84_projection (φ := φ) hist hcar hφ dom hbar hd (m.map (fun q => (q.1, arrays q.1))) (by rw [hfst]; exact hnd) hkeys n k u l hu hl hhu hhl
  have hval := Wick.C84_window_partial h8 (fun q hq p hp => ((hE q hq).2.2 p hp).1) h2 (fun q hq => (hE q hq).2.1) hf hc hv hcar hvac
    (ψ := φ ∘ₗ LinearMap.mulLeft R (bra v.op u l)) (fun w hw => bra_normalProd_length hcar hφ hhu hhl (by omega))
  have hsum : ((m.map (fun q => (q.1, arrays q.1))).map (fun q => keyOperator dom (normalProd hole v.op) q.1 q.2)).sum = Lin.eval (v.normalValue hole) e := by
    rw [List.map_map]; exact h3
  rw [hsum] at p1 p2
  have hval' : φ (bra v.op u l * Lin.eval (v.normalValue hole) e) = _ := hval
  rw [hval'] at p1 p2
  by_cases hmem : spaceKey o n k ∈ m.map Prod.fst
  · rw [if_pos hmem]
    refine p1 _ ?_
    obtain ⟨q, hq, e⟩ := List.mem_map.1 hmem
    exact List.mem_map.2 ⟨q, hq, by rw [e]⟩
  · rw [if_neg hmem]
    exact p2 (by rw [hfst]; exact hmem)
end

/-! ## the arrays of the examples -/

section
variable {Ω S : Type} [Inhabited Ω] [DecidableEq Ω] [CommRing S]

theorem keepsLetters_replicate (c : Char) {n : Nat} (σ : Perm (Fin n)) : KeepsLetters (List.replicate n c) σ := by
  intro k
  rw [List.getElem?_replicate, List.getElem?_replicate, if_pos (σ k).2, if_pos k.2]

theorem antisymmetrized_block (c d : Char) (r : List Ω → S) (u l : List Ω) :
    antisymmetrized (List.replicate u.length c) (List.replicate l.length d) r u l = antisymmetrizer 0 u.length (antisymmetrizer u.length l.length r) (u ++ l) := by
  have h1 := antisymmetrizer_append (antisymmetrizer u.length l.length r) (u := []) (s := u) (v := l) rfl rfl
  rw [List.nil_append] at h1
  refine Eq.trans ?_ h1.symm
  unfold antisymmetrized
  rw [Finset.filter_true_of_mem (fun σ _ => keepsLetters_replicate c σ)]
  apply Finset.sum_congr rfl
  intro σ _
  have h2 := antisymmetrizer_append r (u := permuted σ u) (s := l) (v := []) (permuted_length _ _) rfl
  rw [List.append_nil] at h2
  rw [List.nil_append, h2, Finset.filter_true_of_mem (fun τ _ => keepsLetters_replicate d τ), Finset.mul_sum]
  apply Finset.sum_congr rfl
  intro τ _
  rw [List.append_nil, mul_assoc]

/-- **C84** and **C81**: for two occupied and two virtual indices, `antisymmetrize_residual_2_2` applied to the array is the antisymmetrised array -/
theorem C84_two_two (c d : Char) (r : List Ω → S) (i j a b : Ω) :
    antisymmetrized [c, c] [d, d] r [i, j] [a, b] = antisymmetrize22 r [i, j, a, b] :=
  (antisymmetrized_block c d r [i, j] [a, b]).trans (C81_two_two r (x := [i, j, a, b]) rfl).symm

/-- **C84** and **C81**: the same for three occupied and three virtual indices -/
theorem C84_three_three (c d : Char) (r : List Ω → S) (i j k a b e : Ω) :
    antisymmetrized [c, c, c] [d, d, d] r [i, j, k] [a, b, e] = antisymmetrize33 r [i, j, k, a, b, e] :=
  (antisymmetrized_block c d r [i, j, k] [a, b, e]).trans (C81_three_three r (x := [i, j, k, a, b, e]) rfl).symm

theorem C84_one_one (c d : Char) (r : List Ω → S) (i a : Ω) : antisymmetrized [c] [d] r [i] [a] = r [i, a] := by
  refine (antisymmetrized_block c d r [i] [a]).trans ?_
  simp [antisymmetrizer, permuted]

theorem C84_scalar (r : List Ω → S) : antisymmetrized [] [] r [] [] = r [] := by
  have := antisymmetrized_block (Ω := Ω) 'o' 'v' r [] []
  refine this.trans ?_
  simp [antisymmetrizer, permuted]

theorem keeps_aab : (Finset.univ.filter (fun σ : Perm (Fin 3) => KeepsLetters "ooO".toList σ)) = {1, swap 0 1} := by decide
theorem keeps_aab' : (Finset.univ.filter (fun σ : Perm (Fin 3) => KeepsLetters "vvV".toList σ)) = {1, swap 0 1} := by decide
theorem keeps_abb : (Finset.univ.filter (fun σ : Perm (Fin 3) => KeepsLetters "oOO".toList σ)) = {1, swap 1 2} := by decide
theorem keeps_abb' : (Finset.univ.filter (fun σ : Perm (Fin 3) => KeepsLetters "vVV".toList σ)) = {1, swap 1 2} := by decide

/-- **C84** and **C81**: spin-integrated triples, two alpha and one beta -/
theorem C84_aab (r : List Ω → S) (i j k a b c : Ω) : antisymmetrized "ooO".toList "vvV".toList r [i, j, k] [a, b, c] = antisymmetrizeAab r [i, j, k, a, b, c] := by
  rw [antisymmetrized]
  simp only [List.length_cons, List.length_nil, Nat.reduceAdd]
  rw [keeps_aab, keeps_aab', Finset.sum_pair (by decide), Finset.sum_pair (by decide), Finset.sum_pair (by decide)]
  have e1 : (swap 0 1 : Perm (Fin 3)) 2 = 2 := by decide
  simp [permuted, e1, antisymmetrizeAab, runTranspose, antisymAabLines, einsumTranspose]
  ring

/-- **C84** and **C81**: spin-integrated triples, one alpha and two beta -/
theorem C84_abb (r : List Ω → S) (i j k a b c : Ω) : antisymmetrized "oOO".toList "vVV".toList r [i, j, k] [a, b, c] = antisymmetrizeAbb r [i, j, k, a, b, c] := by
  rw [antisymmetrized]
  simp only [List.length_cons, List.length_nil, Nat.reduceAdd]
  rw [keeps_abb, keeps_abb', Finset.sum_pair (by decide), Finset.sum_pair (by decide), Finset.sum_pair (by decide)]
  have e1 : (swap 1 2 : Perm (Fin 3)) 0 = 0 := by decide
  simp [permuted, e1, antisymmetrizeAbb, runTranspose, antisymAbbLines, einsumTranspose]
  ring
end

/-! ## the functions of the examples -/

theorem repeatLabels_single {o : OSI} (hI : RegInv o) {s : Nat} {x : OrbitalSpace} (hs : o.spaces[s]? = some x) (n : Nat) :
    repeatLabels o (fun i => if i = s then n else 0) = List.replicate n x.label := by
  have key : ∀ (sp : List OrbitalSpace) (k : Nat), (∀ p ∈ sp.zipIdx k, p.2 ≠ s) → (sp.zipIdx k).flatMap (fun p => List.replicate (if p.2 = s then n else 0) p.1.label) = [] := by
    intro sp k h
    rw [List.flatMap_eq_nil_iff]
    intro p hp
    rw [if_neg (h p hp)]; rfl
  obtain ⟨hlt, hx⟩ := List.getElem?_eq_some_iff.1 hs
  unfold repeatLabels
  obtain ⟨a, b, hab, hla⟩ : ∃ a b, o.spaces = a ++ x :: b ∧ a.length = s :=
    ⟨o.spaces.take s, o.spaces.drop (s + 1), by rw [← hx, List.getElem_cons_drop hlt, List.take_append_drop], by simp; omega⟩
  rw [hab, List.zipIdx_append, List.flatMap_append, List.zipIdx_cons, List.flatMap_cons, key a 0 ?_, key b _ ?_, List.nil_append, List.append_nil, Nat.zero_add]
  · show List.replicate (if a.length = s then n else 0) x.label = _
    rw [if_pos hla]
  · intro p hp
    have := List.le_snd_of_mem_zipIdx hp
    omega
  · intro p hp
    have := List.snd_lt_of_mem_zipIdx hp
    simp at this
    omega

section
variable {Ω R A : Type} [Inhabited Ω] [DecidableEq Ω] [CommRing R] [Ring A] [Algebra R A] [Algebra ℚ R] [Algebra ℚ A] [IsScalarTower ℚ R A]

/-- **C84** for the programs in the notebooks, for arbitrary coefficients: there are spaces `o` and `v`, all spaces are occupied or unoccupied, and the tensors are called `H` and `T`. For all numbers `n` and `k` with
`n + k` in the window of ranks, all occupied orbitals `u` in `o` and unoccupied orbitals `l` in `v`: the matrix element of the operator expression between the vacuum and the determinant excited from `u` to `l` is
the sum over the terms of the result of the coefficient times the matrix element of the term; and if `generate_equation` returns a function for `n` and `k`, then the
array that the function returns, antisymmetrised in the upper and in the lower indices, is the same sum with the numbers that are printed for the coefficients, which are off by less than `10^-9`; if there is no function because there
is no such key, the matrix element is zero. Missing: products with three alike contractions (C50). -/
theorem C84_residual_rounded_partial (hist : List RegOp) {fmt : Rational → Str} {cfg : WickCfg} {E : OpExpr} {f : Rational} {minr maxr : Int} {e : Expr} :
    let o := runReg OSI.empty hist
    (∀ s ∈ o.spaces, ∀ name ∈ s.indices, ∀ (c : Char) (n : Int), name ≠ c :: '_' :: '{' :: (intStr n ++ ['}'])) →
    (∀ s ∈ o.spaces, isAlpha s.label = true) → PrintsNine fmt → (∃ s ∈ o.spaces, s.label = 'o') → (∃ s ∈ o.spaces, s.label = 'v') →
    o.spaces.length ≤ 8 → (∀ q ∈ E, q.1 ≠ [] ∧ Canon q.2 ∧ ∀ p ∈ q.1, p.Valid o.spaces.length ∧ ∀ c ∈ p.label, isWord c = true) → Canon f →
    contractExpr o cfg f E minr maxr = .ok e → (∀ p ∈ e, p.1.allIdx.toFinset.card ≤ 52) → (∀ q ∈ E, NoTriples o q.1) →
    (∀ p ∈ e, ∀ y ∈ p.1.tensors, y.label = ['H'] ∨ y.label = ['T']) →
    ∀ (v : OrbSystem Ω R A) (arr : Str → Str → List Ω → R) (dom : Char → Finset Ω) (hole : Ω → Bool) (φ : A →ₗ[R] R), v.Antisymmetric → IsCAR v.op → v.Vacuum o hole →
    IsVacuumExpectation v.op hole φ →
    (∀ p ∈ e, ∀ y ∈ p.1.tensors, ∀ l u, l.length = y.lower.length → u.length = y.upper.length → arr y.label (spaceText o y) (u ++ l) = v.T y.label l u) →
    (∀ (n : Nat) s, o.spaces[n]? = some s → dom s.label = v.dom n) →
    (∀ p ∈ e, |litVal fmt p.2 - toRat p.2| < 1 / 10 ^ 9) ∧
    ∃ m, e.toManybody o ['R'] = .ok m ∧ ∀ n k : Nat, minr ≤ n + k → n + k ≤ maxr →
      (∃ text r, generateEquation o fmt m n k = .ok text ∧
        ReturnsArray arr dom text ("evaluate_residual_".toList ++ natStr n ++ "_".toList ++ natStr k)
          (if n + k = 0 then none else some (List.replicate n "nocc".toList ++ List.replicate k "nvir".toList)) r ∧
        ∀ u l : List Ω, u.length = n → l.length = k → (∀ x ∈ u, x ∈ dom 'o' ∧ hole x = true) → (∀ x ∈ l, x ∈ dom 'v' ∧ hole x = false) →
          φ (bra v.op u l * (toRat f • (E.map (fun q => toRat q.2 • (q.1.map (v.opValue hole o.spaces.length)).prod)).sum)) =
            (e.map (fun p => algebraMap ℚ R (toRat p.2) * φ (bra v.op u l * v.normalValue hole p.1))).sum ∧
          antisymmetrizer 0 n (antisymmetrizer n k r) (u ++ l) = (e.map (fun p => algebraMap ℚ R (litVal fmt p.2) * φ (bra v.op u l * v.normalValue hole p.1))).sum) ∨
      (generateEquation o fmt m n k = .error .throw ∧
        ∀ u l : List Ω, u.length = n → l.length = k → (∀ x ∈ u, x ∈ dom 'o' ∧ hole x = true) → (∀ x ∈ l, x ∈ dom 'v' ∧ hole x = false) →
          φ (bra v.op u l * (toRat f • (E.map (fun q => toRat q.2 • (q.1.map (v.opValue hole o.spaces.length)).prod)).sum)) = 0) := by
  intro o hgen hal hfmt ho hvv h8 hE hf hc hb h2 hHT v arr dom hole φ hv hcar hvac hφ harr hdom
  have hcomp : ∀ p ∈ e, p.1.Compilable o := by
    intro p hp
    obtain ⟨q, hq, e', hc', p', hp', he⟩ := contractExpr_mem hc p hp
    have := contract_compilable h8 (fun r hr => ((hE q hq).2.2 r hr).1) (hE q hq).1 (fun r hr => ((hE q hq).2.2 r hr).2) (canon_mul hf (hE q hq).2.1) hc' hp' (by
      rw [he]; exact hb p hp)
    rw [he] at this
    exact this
  obtain ⟨h0, m, hm, arrays, harrays, h3, h1⟩ := C82_generate_equation_rounded hist hgen hal hfmt hcomp
    (fun p hp => (contractExpr_spec hf (fun q hq => (hE q hq).2.1) hc).2.1.toOk.canon p hp) hHT v arr dom (normalProd hole v.op) harr hdom
  refine ⟨h0, m, hm, fun n k hmin hmax => ?_⟩
  have hI : RegInv o := regInv_run hist _ regInv_empty
  obtain ⟨so, hso, hlo⟩ := ho
  obtain ⟨io, hio, rfl⟩ := List.mem_iff_getElem.1 hso
  obtain ⟨sv, hsv, hlv⟩ := hvv
  obtain ⟨iv, hiv, rfl⟩ := List.mem_iff_getElem.1 hsv
  have eo := repeatLabels_single hI (List.getElem?_eq_getElem hio) n
  have ev := repeatLabels_single hI (List.getElem?_eq_getElem hiv) k
  rw [hlo] at eo
  rw [hlv] at ev
  have ekey : spaceKey o (fun i => if i = io then n else 0) (fun i => if i = iv then k else 0) = List.replicate n 'o' ++ '|' :: List.replicate k 'v' := by
    rw [spaceKey, eo, ev, List.reverse_replicate]
  have hbar : ∀ s ∈ o.spaces, s.label ≠ '|' := fun s hs h => absurd (hal s hs) (by rw [h]; decide)
  have hd : ∀ s ∈ o.spaces, ∀ s' ∈ o.spaces, s.label ≠ s'.label → ∀ x ∈ dom s.label, x ∉ dom s'.label := by
    intro s hs s' hs' hne x hx hx'
    obtain ⟨i, hi, ei⟩ := List.mem_iff_getElem.1 hs
    obtain ⟨j, hj, ej⟩ := List.mem_iff_getElem.1 hs'
    rw [hdom i s (by rw [List.getElem?_eq_getElem hi, ei])] at hx
    rw [hdom j s' (by rw [List.getElem?_eq_getElem hj, ej])] at hx'
    exact hvac.disjoint i j hi hj (fun h => hne (by subst h; rw [← ei, ← ej])) x hx hx'
  have hreg : ∀ p ∈ e, OpsRegistered o p.1 := by
    intro p hp a ha
    have := (hcomp p hp).registered a.index (List.mem_append_left _ (List.mem_map_of_mem ha))
    unfold Index.Registered at this
    unfold OSI.numSpaces
    omega
  obtain ⟨m', hm', hnd, hk, _⟩ := C55_partition ['R'] hreg
  rw [hm] at hm'
  injection hm' with hm'
  subst hm'
  have hkeys : ∀ arrays : Str × List Equation → List Ω → R, ∀ q ∈ m.map (fun q => (q.1, arrays q)), ∃ n k, q.1 = spaceKey o n k := by
    intro arrays q hq
    obtain ⟨q', hq', rfl⟩ := List.mem_map.1 hq
    obtain ⟨p, _, e⟩ := (hk q'.1).1 (List.mem_map_of_mem hq')
    exact ⟨_, _, e.symm⟩
  have hfst : ∀ arrays : Str × List Equation → List Ω → R, (m.map (fun q => (q.1, arrays q))).map Prod.fst = m.map Prod.fst := by intro arrays; rw [List.map_map]; rfl
  have hproj := fun (arrays : Str × List Equation → List Ω → R) (u l : List Ω) hu hl hhu hhl => _root_.Wicked.C84_projection (φ := φ) hist hcar hφ dom hbar hd (m.map (fun q => (q.1, arrays q))) (by rw [hfst]; exact hnd) (hkeys arrays)
    (fun i => if i = io then n else 0) (fun i => if i = iv then k else 0) u l hu hl hhu hhl
  have hφsum : ∀ (val : Rational → ℚ) (b : A), φ (b * (e.map (fun p => val p.2 • v.normalValue hole p.1)).sum) = (e.map (fun p => algebraMap ℚ R (val p.2) * φ (b * v.normalValue hole p.1))).sum := by
    intro val b
    have : ∀ e : Expr, φ (b * (e.map (fun p => val p.2 • v.normalValue hole p.1)).sum) = (e.map (fun p => algebraMap ℚ R (val p.2) * φ (b * v.normalValue hole p.1))).sum := by
      intro e
      induction e with
      | nil => simp
      | cons p e ih => rw [List.map_cons, List.sum_cons, mul_add, map_add, ih, List.map_cons, List.sum_cons, mul_smul_comm, map_rat_smul, Algebra.smul_def]
    exact this e
  have hsum : ((m.map (fun q => (q.1, arrays q.1))).map (fun q => keyOperator dom (normalProd hole v.op) q.1 q.2)).sum = (e.map (fun p => litVal fmt p.2 • v.normalValue hole p.1)).sum := by
    rw [List.map_map]; exact h3
  have hsum' : ((m.map (fun q => (q.1, fun x => (q.2.map (fun eq => algebraMap ℚ R (toRat eq.factor) * (eq.lhs.tensors.map (fun t => eq.element v t x)).sum)).sum))).map (fun q => keyOperator dom (normalProd hole v.op) q.1 q.2)).sum =
      Lin.eval (v.normalValue hole) e := by
    rw [List.map_map]
    exact manybody_arrays_value hbar hcomp hreg toRat v dom (normalProd hole v.op) hdom hm
  have hF : ∀ (c : Char) (n : Nat) (u : List Ω), u.length = n → (∀ x ∈ u, x ∈ dom c) → List.Forall₂ (· ∈ ·) u ((List.replicate n c).map dom) := by
    intro c n u hn hu
    subst hn
    rw [List.map_replicate]
    clear hproj
    induction u with
    | nil => exact .nil
    | cons a u ih => exact .cons (hu a (by simp)) (ih (fun x hx => hu x (by simp [hx])))
  have hval : ∀ u l : List Ω, u.length = n → l.length = k → (∀ x ∈ u, x ∈ dom 'o' ∧ hole x = true) → (∀ x ∈ l, x ∈ dom 'v' ∧ hole x = false) →
      φ (bra v.op u l * Lin.eval (v.normalValue hole) e) = φ (bra v.op u l * (toRat f • (E.map (fun q => toRat q.2 • (q.1.map (v.opValue hole o.spaces.length)).prod)).sum)) := by
    intro u l hun hlk hu hl
    exact Wick.C84_window_partial h8 (fun q hq p hp => ((hE q hq).2.2 p hp).1) h2 (fun q hq => (hE q hq).2.1) hf hc hv hcar hvac
      (ψ := φ ∘ₗ LinearMap.mulLeft R (bra v.op u l)) (fun w hw => bra_normalProd_length hcar hφ (fun x hx => (hu x hx).2) (fun x hx => (hl x hx).2) (by omega))
  have hproj1 := hproj (fun q => arrays q.1)
  have hproj2 := hproj (fun q x => (q.2.map (fun eq => algebraMap ℚ R (toRat eq.factor) * (eq.lhs.tensors.map (fun t => eq.element v t x)).sum)).sum)
  rw [eo, ev, ekey, hsum, hfst] at hproj1
  rw [eo, ev, ekey, hsum', hfst] at hproj2
  by_cases hmem : List.replicate n 'o' ++ '|' :: List.replicate k 'v' ∈ m.map Prod.fst
  · left
    obtain ⟨text, ht, hr⟩ := (h1 n k).1 hmem
    refine ⟨text, _, ht, hr, fun u l hun hlk hu hl => ⟨?_, ?_⟩⟩
    · rw [← hval u l hun hlk hu hl]
      exact hφsum toRat _
    · have hp := (hproj1 u l (hF _ _ _ hun (fun x hx => (hu x hx).1)) (hF _ _ _ hlk (fun x hx => (hl x hx).1)) (fun x hx => (hu x hx).2) (fun x hx => (hl x hx).2)).1
        (arrays (List.replicate n 'o' ++ '|' :: List.replicate k 'v')) (by
          obtain ⟨q, hq, e⟩ := List.mem_map.1 hmem
          exact List.mem_map.2 ⟨q, hq, by rw [e]⟩)
      rw [← hφsum (litVal fmt), hp]
      subst hun; subst hlk
      exact (antisymmetrized_block _ _ _ _ _).symm
  · right
    refine ⟨(h1 n k).2 hmem, fun u l hun hlk hu hl => ?_⟩
    rw [← hval u l hun hlk hu hl]
    exact (hproj2 u l (hF _ _ _ hun (fun x hx => (hu x hx).1)) (hF _ _ _ hlk (fun x hx => (hl x hx).1)) (fun x hx => (hu x hx).2) (fun x hx => (hl x hx).2)).2 hmem

/-- **C84** for the programs in the notebooks: there are spaces `o` and `v`, all spaces are occupied or unoccupied, and the tensors are called `H` and `T`. For all numbers `n` and `k` with
`n + k` in the window of ranks, all occupied orbitals `u` in `o` and unoccupied orbitals `l` in `v`: if `generate_equation` returns a function for `n` and `k`, then the
array that the function returns, antisymmetrised in the upper and in the lower indices, is the matrix element of the operator expression between the vacuum
and the determinant excited from `u` to `l`; if there is no function because there is no such key, the matrix element is zero. -/
theorem C84_residual_partial (hist : List RegOp) {fmt : Rational → Str} {cfg : WickCfg} {E : OpExpr} {f : Rational} {minr maxr : Int} {e : Expr} :
    let o := runReg OSI.empty hist
    (∀ s ∈ o.spaces, ∀ name ∈ s.indices, ∀ (c : Char) (n : Int), name ≠ c :: '_' :: '{' :: (intStr n ++ ['}'])) →
    (∀ s ∈ o.spaces, isAlpha s.label = true) → PrintsNine fmt → (∃ s ∈ o.spaces, s.label = 'o') → (∃ s ∈ o.spaces, s.label = 'v') →
    o.spaces.length ≤ 8 → (∀ q ∈ E, q.1 ≠ [] ∧ Canon q.2 ∧ ∀ p ∈ q.1, p.Valid o.spaces.length ∧ ∀ c ∈ p.label, isWord c = true) → Canon f →
    contractExpr o cfg f E minr maxr = .ok e → (∀ p ∈ e, p.1.allIdx.toFinset.card ≤ 52 ∧ p.2.den ∣ 10 ^ 9) → (∀ q ∈ E, NoTriples o q.1) →
    (∀ p ∈ e, ∀ y ∈ p.1.tensors, y.label = ['H'] ∨ y.label = ['T']) →
    ∀ (v : OrbSystem Ω R A) (arr : Str → Str → List Ω → R) (dom : Char → Finset Ω) (hole : Ω → Bool) (φ : A →ₗ[R] R), v.Antisymmetric → IsCAR v.op → v.Vacuum o hole →
    IsVacuumExpectation v.op hole φ →
    (∀ p ∈ e, ∀ y ∈ p.1.tensors, ∀ l u, l.length = y.lower.length → u.length = y.upper.length → arr y.label (spaceText o y) (u ++ l) = v.T y.label l u) →
    (∀ (n : Nat) s, o.spaces[n]? = some s → dom s.label = v.dom n) →
    ∃ m, e.toManybody o ['R'] = .ok m ∧ ∀ n k : Nat, minr ≤ n + k → n + k ≤ maxr →
      (∃ text r, generateEquation o fmt m n k = .ok text ∧
        ReturnsArray arr dom text ("evaluate_residual_".toList ++ natStr n ++ "_".toList ++ natStr k)
          (if n + k = 0 then none else some (List.replicate n "nocc".toList ++ List.replicate k "nvir".toList)) r ∧
        ∀ u l : List Ω, u.length = n → l.length = k → (∀ x ∈ u, x ∈ dom 'o' ∧ hole x = true) → (∀ x ∈ l, x ∈ dom 'v' ∧ hole x = false) →
          φ (bra v.op u l * (toRat f • (E.map (fun q => toRat q.2 • (q.1.map (v.opValue hole o.spaces.length)).prod)).sum)) =
            antisymmetrizer 0 n (antisymmetrizer n k r) (u ++ l)) ∨
      (generateEquation o fmt m n k = .error .throw ∧
        ∀ u l : List Ω, u.length = n → l.length = k → (∀ x ∈ u, x ∈ dom 'o' ∧ hole x = true) → (∀ x ∈ l, x ∈ dom 'v' ∧ hole x = false) →
          φ (bra v.op u l * (toRat f • (E.map (fun q => toRat q.2 • (q.1.map (v.opValue hole o.spaces.length)).prod)).sum)) = 0) := by
  intro o hgen hal hfmt ho hvv h8 hE hf hc hb h2 hHT v arr dom hole φ hv hcar hvac hφ harr hdom
  obtain ⟨_, m, hm, h⟩ := C84_residual_rounded_partial hist hgen hal hfmt ho hvv h8 hE hf hc (fun p hp => (hb p hp).1) h2 hHT v arr dom hole φ hv hcar hvac hφ harr hdom
  refine ⟨m, hm, fun n k hmin hmax => ?_⟩
  rcases h n k hmin hmax with ⟨text, r, ht, hr, h⟩ | h
  · refine Or.inl ⟨text, r, ht, hr, fun u l hun hlk hu hl => ?_⟩
    obtain ⟨h1, h2⟩ := h u l hun hlk hu hl
    rw [h1, h2]
    congr 1
    apply List.map_congr_left
    intro p hp
    rw [litVal_exact hfmt ((contractExpr_spec hf (fun q hq => (hE q hq).2.1) hc).2.1.toOk.canon p hp) (hb p hp).2]
  · exact Or.inr h

/-- **C84**, the error of the residual: arrays of numbers with an absolute value (real or complex numbers). Without any hypothesis on the denominators, the antisymmetrised array of the function that `generate_equation`
returns differs from the matrix element of the operator expression between the vacuum and the excited determinant by at most `10^-9` times the sum of the absolute values of the matrix elements of
the terms of the result. Missing: products with three alike contractions (C50). -/
theorem C84_residual_error_partial {S : Type} [Field S] [LinearOrder S] [IsStrictOrderedRing S] (abv : AbsoluteValue R S)
    (habv : ∀ c : ℚ, abv (algebraMap ℚ R c) = ((|c| : ℚ) : S)) (hist : List RegOp) {fmt : Rational → Str} {cfg : WickCfg} {E : OpExpr} {f : Rational} {minr maxr : Int} {e : Expr} :
    let o := runReg OSI.empty hist
    (∀ s ∈ o.spaces, ∀ name ∈ s.indices, ∀ (c : Char) (n : Int), name ≠ c :: '_' :: '{' :: (intStr n ++ ['}'])) →
    (∀ s ∈ o.spaces, isAlpha s.label = true) → PrintsNine fmt → (∃ s ∈ o.spaces, s.label = 'o') → (∃ s ∈ o.spaces, s.label = 'v') →
    o.spaces.length ≤ 8 → (∀ q ∈ E, q.1 ≠ [] ∧ Canon q.2 ∧ ∀ p ∈ q.1, p.Valid o.spaces.length ∧ ∀ c ∈ p.label, isWord c = true) → Canon f →
    contractExpr o cfg f E minr maxr = .ok e → (∀ p ∈ e, p.1.allIdx.toFinset.card ≤ 52) → (∀ q ∈ E, NoTriples o q.1) →
    (∀ p ∈ e, ∀ y ∈ p.1.tensors, y.label = ['H'] ∨ y.label = ['T']) →
    ∀ (v : OrbSystem Ω R A) (arr : Str → Str → List Ω → R) (dom : Char → Finset Ω) (hole : Ω → Bool) (φ : A →ₗ[R] R), v.Antisymmetric → IsCAR v.op → v.Vacuum o hole →
    IsVacuumExpectation v.op hole φ →
    (∀ p ∈ e, ∀ y ∈ p.1.tensors, ∀ l u, l.length = y.lower.length → u.length = y.upper.length → arr y.label (spaceText o y) (u ++ l) = v.T y.label l u) →
    (∀ (n : Nat) s, o.spaces[n]? = some s → dom s.label = v.dom n) →
    ∃ m, e.toManybody o ['R'] = .ok m ∧ ∀ n k : Nat, minr ≤ n + k → n + k ≤ maxr →
      (∃ text r, generateEquation o fmt m n k = .ok text ∧
        ReturnsArray arr dom text ("evaluate_residual_".toList ++ natStr n ++ "_".toList ++ natStr k)
          (if n + k = 0 then none else some (List.replicate n "nocc".toList ++ List.replicate k "nvir".toList)) r ∧
        ∀ u l : List Ω, u.length = n → l.length = k → (∀ x ∈ u, x ∈ dom 'o' ∧ hole x = true) → (∀ x ∈ l, x ∈ dom 'v' ∧ hole x = false) →
          abv (antisymmetrizer 0 n (antisymmetrizer n k r) (u ++ l) - φ (bra v.op u l * (toRat f • (E.map (fun q => toRat q.2 • (q.1.map (v.opValue hole o.spaces.length)).prod)).sum))) ≤
            1 / 10 ^ 9 * (e.map (fun p => abv (φ (bra v.op u l * v.normalValue hole p.1)))).sum) ∨
      (generateEquation o fmt m n k = .error .throw ∧
        ∀ u l : List Ω, u.length = n → l.length = k → (∀ x ∈ u, x ∈ dom 'o' ∧ hole x = true) → (∀ x ∈ l, x ∈ dom 'v' ∧ hole x = false) →
          φ (bra v.op u l * (toRat f • (E.map (fun q => toRat q.2 • (q.1.map (v.opValue hole o.spaces.length)).prod)).sum)) = 0) := by
  intro o hgen hal hfmt ho hvv h8 hE hf hc hb h2 hHT v arr dom hole φ hv hcar hvac hφ harr hdom
  obtain ⟨h0, m, hm, h⟩ := C84_residual_rounded_partial hist hgen hal hfmt ho hvv h8 hE hf hc hb h2 hHT v arr dom hole φ hv hcar hvac hφ harr hdom
  refine ⟨m, hm, fun n k hmin hmax => ?_⟩
  rcases h n k hmin hmax with ⟨text, r, ht, hr, h⟩ | h
  · refine Or.inl ⟨text, r, ht, hr, fun u l hun hlk hu hl => ?_⟩
    obtain ⟨h1, h2⟩ := h u l hun hlk hu hl
    rw [h1, h2]
    have := abv_rounded_sum abv habv (ε := 1 / 10 ^ 9) e (fun p => toRat p.2) (fun p => litVal fmt p.2) h0 (fun p => φ (bra v.op u l * v.normalValue hole p.1))
    have h9 : (((1 / 10 ^ 9 : ℚ)) : S) = 1 / 10 ^ 9 := by push_cast; rfl
    rw [h9] at this
    exact this
  · exact Or.inr h
end

/-! ## an instance: `1/2 H T` in the Jordan-Wigner representation -/

/-- the products of `H^v_v` and `T^o_v` -/
def prOps : OperatorProduct := [mkOp "H" [(0, 0), (1, 1)], mkOp "T" [(0, 1), (1, 0)]]

theorem prOps_valid : ∀ p ∈ prOps, p.Valid srReg.spaces.length := by
  intro p hp
  rcases List.mem_cons.1 hp with rfl | hp
  · exact mkOp_valid _ _ _ (by decide) (by simp)
  · rcases List.mem_cons.1 hp with rfl | hp
    · exact mkOp_valid _ _ _ (by decide) (by simp)
    · cases hp

theorem prOps_two : ∀ p ∈ prOps, ∀ s, p.gm.cre s ≤ 2 := by
  intro p hp s
  by_cases hs : s < 8
  · simp only [prOps, List.mem_cons, List.not_mem_nil, or_false] at hp
    rcases hp with rfl | rfl <;> interval_cases s <;> decide
  · have : p.gm.cre s = 0 := by
      simp only [prOps, List.mem_cons, List.not_mem_nil, or_false] at hp
      rcases hp with rfl | rfl <;> simp [mkOp, GraphMatrix.cre, gm_get_tab, hs]
    omega

-- all hypotheses hold for `1/2 H T` with one occupied and one unoccupied orbital; there is a function for the key `o|v`, it returns the array with the element 1/2, and this is the matrix element
example : ∃ e m text r, contractExpr srReg {} ⟨1, 2⟩ (oneProd prOps) 2 2 = .ok e ∧ e.toManybody srReg ['R'] = .ok m ∧ generateEquation srReg (cutAt 9) m 1 1 = .ok text ∧
    ReturnsArray (fun _ _ _ => 1) (fun c => if c = 'o' then {true} else {false}) text "evaluate_residual_1_1".toList (some ["nocc".toList, "nvir".toList]) r ∧
    jwVac (bra jwOp [true] [false] * (((1 : ℚ) / 2) • (prOps.map (jwSys.opValue id 2)).prod)) = r [true, false] ∧ r [true, false] = 1 / 2 := by
  obtain ⟨e, he, h1⟩ := ok_of_check (x := contractExpr srReg {} ⟨1, 2⟩ (oneProd prOps) 2 2) (fun e =>
    decide ((∀ p ∈ e, p.1.allIdx.toFinset.card ≤ 52 ∧ p.2.den ∣ 10 ^ 9) ∧ (∀ p ∈ e, ∀ y ∈ p.1.tensors, y.lower.length ≤ 1 ∧ y.upper.length ≤ 1) ∧
      (∀ p ∈ e, ∀ y ∈ p.1.tensors, y.label = ['H'] ∨ y.label = ['T']) ∧
      ((Expr.toManybody srReg ['R'] e).bind (fun m => generateEquation srReg (cutAt 9) m 1 1)).toOption.isSome = true)) (by decide +kernel)
  obtain ⟨hb, ht, hHT, hsome⟩ := of_decide_eq_true h1
  have hone : (oneProd prOps) = [(prOps, ⟨1, 1⟩)] := by decide +kernel
  obtain ⟨m, hm, hres⟩ := C84_residual_partial (Ω := Bool) (R := ℚ) (A := Matrix (Fin 4) (Fin 4) ℚ) srHistory (fmt := (cutAt 9)) (cfg := {}) (E := oneProd prOps) (f := ⟨1, 2⟩) (minr := 2) (maxr := 2) (e := e)
    (by
      intro s hs name hn
      have h0 : ∀ s ∈ srReg.spaces, s.indices = [] := by decide
      rw [h0 s hs] at hn
      cases hn) (by decide) cut9_prints (by decide) (by decide) (by decide)
    (by
      intro q hq
      have hq1 := mem_oneProd hq
      refine ⟨by rw [hq1]; decide, ?_, fun p hp => ⟨?_, ?_⟩⟩
      · rw [hone, List.mem_singleton] at hq; subst hq; constructor <;> decide
      · rw [hq1] at hp; exact prOps_valid p hp
      · rw [hq1] at hp; revert p; decide)
    (by constructor <;> decide) he hb (fun q hq => by rw [mem_oneProd hq]; exact noTriples_of_two prOps_two) hHT
    jwSys (fun _ _ _ => 1) (fun c => if c = 'o' then {true} else {false}) id jwVac jw_anti jw_car srReg_vacuum jw_expectation
    (by
      intro p hp y hy l u hl hu
      have := ht p hp y hy
      show (1 : ℚ) = if l.length ≤ 1 ∧ u.length ≤ 1 then 1 else 0
      rw [if_pos ⟨by omega, by omega⟩])
    (by
      intro n s hs
      match n with
      | 0 => cases hs; decide
      | 1 => cases hs; decide
      | n + 2 => cases hs)
  rw [hm] at hsome
  rcases hres 1 1 (by decide) (by decide) with ⟨text, r, hg, hr, hp⟩ | ⟨hg, _⟩
  · refine ⟨e, m, text, r, he, hm, hg, hr, ?_⟩
    have := hp [true] [false] rfl rfl (by simp) (by simp)
    rw [hone] at this
    have e2 : antisymmetrizer 0 1 (antisymmetrizer 1 1 r) ([true] ++ [false]) = r [true, false] := by simp [antisymmetrizer, permuted]
    rw [e2] at this
    have e5 : jwVac (bra jwOp [true] [false] * (((1 : ℚ) / 2) • (prOps.map (jwSys.opValue id 2)).prod)) = r [true, false] := ?_
    · exact ⟨e5, by rw [← e5]; decide +kernel⟩
    rw [← this]
    have e3 : toRat ⟨1, 2⟩ = (1 : ℚ) / 2 := by norm_num [toRat]
    have e4 : toRat ⟨1, 1⟩ = (1 : ℚ) := by norm_num [toRat]
    rw [List.map_singleton, List.sum_singleton, e3, e4, one_smul]
    rfl
  · have : (Except.bind (.ok m) (fun m => generateEquation srReg (cutAt 9) m 1 1)).toOption.isSome = true := hsome
    rw [show Except.bind (.ok m) (fun m => generateEquation srReg (cutAt 9) m 1 1) = generateEquation srReg (cutAt 9) m 1 1 from rfl, hg] at this
    cases this

-- the same for `1/3 H T`, whose coefficient is not printed exactly
example : ∃ e m text r, contractExpr srReg {} ⟨1, 3⟩ (oneProd prOps) 2 2 = .ok e ∧ e.toManybody srReg ['R'] = .ok m ∧ generateEquation srReg (cutAt 9) m 1 1 = .ok text ∧
    ReturnsArray (fun _ _ _ => 1) (fun c => if c = 'o' then {true} else {false}) text "evaluate_residual_1_1".toList (some ["nocc".toList, "nvir".toList]) r ∧
    |r [true, false] - jwVac (bra jwOp [true] [false] * (((1 : ℚ) / 3) • (prOps.map (jwSys.opValue id 2)).prod))| ≤
      1 / 10 ^ 9 * (e.map (fun p => |jwVac (bra jwOp [true] [false] * jwSys.normalValue id p.1)|)).sum := by
  obtain ⟨e, he, h1⟩ := ok_of_check (x := contractExpr srReg {} ⟨1, 3⟩ (oneProd prOps) 2 2) (fun e =>
    decide ((∀ p ∈ e, p.1.allIdx.toFinset.card ≤ 52 ) ∧ (∀ p ∈ e, ∀ y ∈ p.1.tensors, y.lower.length ≤ 1 ∧ y.upper.length ≤ 1) ∧
      (∀ p ∈ e, ∀ y ∈ p.1.tensors, y.label = ['H'] ∨ y.label = ['T']) ∧
      ((Expr.toManybody srReg ['R'] e).bind (fun m => generateEquation srReg (cutAt 9) m 1 1)).toOption.isSome = true)) (by decide +kernel)
  obtain ⟨hb, ht, hHT, hsome⟩ := of_decide_eq_true h1
  have hone : (oneProd prOps) = [(prOps, ⟨1, 1⟩)] := by decide +kernel
  obtain ⟨m, hm, hres⟩ := C84_residual_error_partial (Ω := Bool) (R := ℚ) (A := Matrix (Fin 4) (Fin 4) ℚ) (AbsoluteValue.abs : AbsoluteValue ℚ ℚ) (by intro c; simp) srHistory (fmt := (cutAt 9)) (cfg := {}) (E := oneProd prOps) (f := ⟨1, 3⟩) (minr := 2) (maxr := 2) (e := e)
    (by
      intro s hs name hn
      have h0 : ∀ s ∈ srReg.spaces, s.indices = [] := by decide
      rw [h0 s hs] at hn
      cases hn) (by decide) cut9_prints (by decide) (by decide) (by decide)
    (by
      intro q hq
      have hq1 := mem_oneProd hq
      refine ⟨by rw [hq1]; decide, ?_, fun p hp => ⟨?_, ?_⟩⟩
      · rw [hone, List.mem_singleton] at hq; subst hq; constructor <;> decide
      · rw [hq1] at hp; exact prOps_valid p hp
      · rw [hq1] at hp; revert p; decide)
    (by constructor <;> decide) he hb (fun q hq => by rw [mem_oneProd hq]; exact noTriples_of_two prOps_two) hHT
    jwSys (fun _ _ _ => 1) (fun c => if c = 'o' then {true} else {false}) id jwVac jw_anti jw_car srReg_vacuum jw_expectation
    (by
      intro p hp y hy l u hl hu
      have := ht p hp y hy
      show (1 : ℚ) = if l.length ≤ 1 ∧ u.length ≤ 1 then 1 else 0
      rw [if_pos ⟨by omega, by omega⟩])
    (by
      intro n s hs
      match n with
      | 0 => cases hs; decide
      | 1 => cases hs; decide
      | n + 2 => cases hs)
  rw [hm] at hsome
  rcases hres 1 1 (by decide) (by decide) with ⟨text, r, hg, hr, hp⟩ | ⟨hg, _⟩
  · refine ⟨e, m, text, r, he, hm, hg, hr, ?_⟩
    have := hp [true] [false] rfl rfl (by simp) (by simp)
    rw [hone] at this
    have e2 : antisymmetrizer 0 1 (antisymmetrizer 1 1 r) ([true] ++ [false]) = r [true, false] := by simp [antisymmetrizer, permuted]
    rw [e2] at this
    have e3 : toRat ⟨1, 3⟩ = (1 : ℚ) / 3 := by norm_num [toRat]
    have e4 : toRat ⟨1, 1⟩ = (1 : ℚ) := by norm_num [toRat]
    rw [List.map_singleton, List.sum_singleton, e3, e4, one_smul] at this
    exact this
  · have : (Except.bind (.ok m) (fun m => generateEquation srReg (cutAt 9) m 1 1)).toOption.isSome = true := hsome
    rw [show Except.bind (.ok m) (fun m => generateEquation srReg (cutAt 9) m 1 1) = generateEquation srReg (cutAt 9) m 1 1 from rfl, hg] at this
    cases this

end Wick
end Wicked
