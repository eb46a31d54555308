import Verif.Proofs.NotebookKeys
import Verif.Props.Notebook
/-! # C99: the coupled-cluster notebooks find their equations -/
namespace Wicked
open CppLt CppEq Rational Lin GenOp

namespace Wick
section
variable {r : Nat}

/-- `r` occupied and `r` unoccupied orbitals -/
def holeHalf (r : Nat) (x : Fin (2 * r)) : Bool := decide (x.val < r)

/-- an antisymmetric function of `r` orbitals -/
def vdmR (r : Nat) (l : List (Fin (2 * r))) : ℚ := if l.length = r then vdm (l.map (fun x => (x.val : ℤ))) else 0

theorem vdmR_anti (r : Nat) : Alternates (vdmR r) := by
  intro pre a b post
  unfold vdmR
  have hl : (pre ++ a :: b :: post).length = (pre ++ b :: a :: post).length := by simp
  rw [hl]
  split
  · simp only [List.map_append, List.map_cons]
    rw [vdm_anti]
  · rw [neg_zero]

theorem vdm_ne {l : List ℤ} (h : l.Nodup) : vdm l ≠ 0 := by
  unfold vdm
  induction l with
  | nil => simp [pairProd]
  | cons a l ih =>
    rw [pairProd]
    refine mul_ne_zero ?_ (ih (List.nodup_cons.1 h).2)
    rw [Ne, List.prod_eq_zero_iff, List.mem_map]
    rintro ⟨b, hb, e⟩
    have : (a : ℚ) = b := sub_eq_zero.1 e
    have : a = b := by exact_mod_cast this
    exact (List.nodup_cons.1 h).1 (this ▸ hb)

theorem vdmR_ne {l : List (Fin (2 * r))} (hl : l.length = r) (h : l.Nodup) : vdmR r l ≠ 0 := by
  unfold vdmR
  rw [if_pos hl]
  refine vdm_ne (h.map (fun a b e => ?_))
  have : a.val = b.val := by exact_mod_cast e
  exact Fin.ext this

/-- tensors for which the residual of rank `r` is not zero: the Hamiltonian counts the electrons in the unoccupied orbitals -/
def tensorCount (r : Nat) (lab : Str) (l u : List (Fin (2 * r))) : ℚ :=
  if lab = ['H'] then (if l.length = 1 ∧ l = u ∧ ∀ x ∈ l, holeHalf r x = false then 1 else 0) else vdmR r l * vdmR r u

/-- tensors for which the energy is not zero: the Hamiltonian is the adjoint of the cluster operator -/
def tensorAdj (r : Nat) (lab : Str) (l u : List (Fin (2 * r))) : ℚ :=
  if lab = ['H'] then (if (∀ x ∈ l, holeHalf r x = true) ∧ ∀ x ∈ u, holeHalf r x = false then vdmR r l * vdmR r u else 0) else vdmR r l * vdmR r u

/-- the array with the elements of a tensor, upper indices first -/
def arrOf {Ω : Type} (T : Str → List Ω → List Ω → ℚ) (lab _key : Str) (x : List Ω) : ℚ := T lab (x.drop (x.length / 2)) (x.take (x.length / 2))

theorem arrOf_eq {Ω : Type} (T : Str → List Ω → List Ω → ℚ) (lab key : Str) (l u : List Ω) (h : l.length = u.length) : arrOf T lab key (u ++ l) = T lab l u := by
  unfold arrOf
  rw [List.length_append, h, show (u.length + u.length) / 2 = u.length by omega]
  simp

variable {A : Type}

theorem tensorCount_anti (dom : Int → Finset (Fin (2 * r))) (op : SQType → Fin (2 * r) → A) : (⟨dom, tensorCount r, op⟩ : OrbSystem (Fin (2 * r)) ℚ A).Antisymmetric := by
  intro lab
  refine ⟨fun pre a b post u => ?_, fun l pre a b post => ?_⟩
  · show tensorCount r lab _ _ = - tensorCount r lab _ _
    unfold tensorCount
    split
    · rw [if_neg (by rintro ⟨h, _⟩; simp at h; omega), if_neg (by rintro ⟨h, _⟩; simp at h; omega), neg_zero]
    · rw [vdmR_anti, neg_mul]
  · show tensorCount r lab _ _ = - tensorCount r lab _ _
    unfold tensorCount
    split
    · rw [if_neg (by rintro ⟨h, rfl, _⟩; simp at h; omega), if_neg (by rintro ⟨h, rfl, _⟩; simp at h; omega), neg_zero]
    · rw [vdmR_anti, mul_neg]

theorem tensorAdj_anti (dom : Int → Finset (Fin (2 * r))) (op : SQType → Fin (2 * r) → A) : (⟨dom, tensorAdj r, op⟩ : OrbSystem (Fin (2 * r)) ℚ A).Antisymmetric := by
  have hm : ∀ (pre : List (Fin (2 * r))) a b post x, x ∈ pre ++ a :: b :: post ↔ x ∈ pre ++ b :: a :: post := by
    intro pre a b post x
    exact ((List.Perm.swap b a post).append_left pre).mem_iff
  intro lab
  refine ⟨fun pre a b post u => ?_, fun l pre a b post => ?_⟩
  · show tensorAdj r lab _ _ = - tensorAdj r lab _ _
    unfold tensorAdj
    simp only [hm pre a b post]
    split
    · split
      · rw [vdmR_anti, neg_mul]
      · rw [neg_zero]
    · rw [vdmR_anti, neg_mul]
  · show tensorAdj r lab _ _ = - tensorAdj r lab _ _
    unfold tensorAdj
    simp only [hm pre a b post]
    split
    · split
      · rw [vdmR_anti, mul_neg]
      · rw [neg_zero]
    · rw [vdmR_anti, mul_neg]

theorem sum_single {B : Type} [AddCommMonoid B] (f : Nat → B) (r : Nat) (ranks : List Nat) (hr : r ∈ ranks) (hnd : ranks.Nodup) (h0 : ∀ n ∈ ranks, n ≠ r → f n = 0) : (ranks.map f).sum = f r := by
  induction ranks with
  | nil => cases hr
  | cons n ranks ih =>
    rw [List.map_cons, List.sum_cons]
    obtain ⟨h1, h2⟩ := List.nodup_cons.1 hnd
    by_cases e : n = r
    · subst e
      rw [List.sum_eq_zero, add_zero]
      intro y hy
      obtain ⟨k, hk, rfl⟩ := List.mem_map.1 hy
      exact h0 k (by simp [hk]) (fun e => h1 (e ▸ hk))
    · rw [h0 n (by simp) e, zero_add]
      exact ih ((List.mem_cons.1 hr).resolve_left (fun e' => e e'.symm)) h2 (fun k hk => h0 k (by simp [hk]))

theorem manyBody_zero {Ω R B : Type} [DecidableEq Ω] [CommRing R] [Ring B] [Algebra R B] [Algebra ℚ B] {T : List Ω → List Ω → R} (N : List (SQType × Ω) → B) {n : Nat} (C A : Finset Ω)
    (h : ∀ l u, l.length = n → T l u = 0) : manyBody T N n C A = 0 := by
  unfold manyBody
  rw [Finset.sum_eq_zero, smul_zero]
  intro p _
  rw [Finset.sum_eq_zero]
  intro q _
  rw [h _ _ (by simp), zero_smul]

/-- the first `r` orbitals -/
def occList (r : Nat) : List (Fin (2 * r)) := List.ofFn (fun i : Fin r => (⟨i.val, by omega⟩ : Fin (2 * r)))
/-- the other orbitals -/
def virList (r : Nat) : List (Fin (2 * r)) := List.ofFn (fun i : Fin r => (⟨r + i.val, by omega⟩ : Fin (2 * r)))

theorem occList_facts (r : Nat) : (occList r).length = r ∧ (occList r).Nodup ∧ ∀ x ∈ occList r, holeHalf r x = true := by
  refine ⟨by simp [occList], List.nodup_ofFn.2 (fun i j e => by simpa [Fin.ext_iff] using e), fun x hx => ?_⟩
  obtain ⟨i, rfl⟩ := List.mem_ofFn.1 hx
  simp [holeHalf]

theorem virList_facts (r : Nat) : (virList r).length = r ∧ (virList r).Nodup ∧ ∀ x ∈ virList r, holeHalf r x = false := by
  refine ⟨by simp [virList], List.nodup_ofFn.2 (fun i j e => by simpa [Fin.ext_iff] using e), fun x hx => ?_⟩
  obtain ⟨i, rfl⟩ := List.mem_ofFn.1 hx
  simp [holeHalf]

/-- **C99**: the notebooks that derive the spin-orbital coupled-cluster equations find them: for every rank `n` of the cluster operator there is a function for the residual equations `mbeq["o...o|v...v"]` (no KeyError), and one
for the energy `mbeq["|"]` if the cluster operator has singles or doubles. -/
theorem C99_keys (hist : List RegOp) (hok : allOk OSI.empty hist) {fmt : Rational → Str} {cfg : WickCfg} {ranks : List Nat} {unique : Bool} {minr maxr : Int} :
    let o := runReg OSI.empty hist
    o.spaces.map (fun s => (s.label, s.spaceType)) = [('o', .occupied), ('v', .unoccupied)] →
    (∀ s ∈ o.spaces, ∀ name ∈ s.indices, ∀ (c : Char) (n : Int), name ≠ c :: '_' :: '{' :: (intStr n ++ ['}'])) → PrintsNine fmt →
    ranks ≠ [] → ranks.Nodup → (∀ n ∈ ranks, 1 ≤ n ∧ n ≤ 6) →
    ∃ E e m, notebookHbar o ranks unique = .ok E ∧ contractExpr o cfg (Rational.ofInt 1) E minr maxr = .ok e ∧ e.toManybody o ['R'] = .ok m ∧
      (∀ n ∈ ranks, minr ≤ 2 * (n : Int) → 2 * (n : Int) ≤ maxr → ∃ text, generateEquation o fmt m n n = .ok text) ∧
      ((1 ∈ ranks ∨ 2 ∈ ranks) → minr ≤ 0 → 0 ≤ maxr → ∃ text, generateEquation o fmt m 0 0 = .ok text) := by
  intro o ho hgen hfmt hne hnd h6
  have habs : ∀ c : ℚ, (AbsoluteValue.abs : AbsoluteValue ℚ ℚ) (algebraMap ℚ ℚ c) = ((|c| : ℚ) : ℚ) := by intro c; simp
  -- facts about the systems with `r` occupied and `r` unoccupied orbitals
  have sys : ∀ r ∈ ranks, ∀ _ : Inhabited (Fin (2 * r)), ∀ tensor : Str → List (Fin (2 * r)) → List (Fin (2 * r)) → ℚ, (∀ l u, tensor ['T'] l u = vdmR r l * vdmR r u) →
      ∀ V O : Finset (Fin (2 * r)), (∀ x, x ∈ V ↔ holeHalf r x = false) → (∀ x, x ∈ O ↔ holeHalf r x = true) →
      let T := (ranks.map (fun n => manyBody (tensor ['T']) (normalProd (holeHalf r) (fockOp ℚ (holeHalf r))) n V O)).sum
      T = manyBody (fun l u => vdmR r l * vdmR r u) (normalProd (holeHalf r) (fockOp ℚ (holeHalf r))) r V O ∧ T * T = 0 := by
    intro r hr _ tensor ht V O hV hO T
    have e1 : T = manyBody (fun l u => vdmR r l * vdmR r u) (normalProd (holeHalf r) (fockOp ℚ (holeHalf r))) r V O := by
      have hf : tensor ['T'] = fun l u => vdmR r l * vdmR r u := by funext l u; exact ht l u
      show (ranks.map _).sum = _
      rw [hf]
      refine sum_single _ r ranks hr hnd (fun n _ hn => manyBody_zero _ _ _ (fun l u hl => ?_))
      unfold vdmR
      rw [if_neg (by rw [hl]; exact hn), zero_mul]
    refine ⟨e1, ?_⟩
    let M : Finset (SQType × Fin (2 * r)) := V.image (fun x => (.creation, x)) ∪ O.image (fun x => (.annihilation, x))
    have hM1 : ∀ m, kills (holeHalf r) m = false → m ∈ M := by
      rintro ⟨s, x⟩ hm
      cases s
      · exact Finset.mem_union_left _ (Finset.mem_image.2 ⟨x, (hV x).2 (by simpa [kills] using hm), rfl⟩)
      · exact Finset.mem_union_right _ (Finset.mem_image.2 ⟨x, (hO x).2 (by simpa [kills] using hm), rfl⟩)
    have hM2 : ∀ m ∈ M, kills (holeHalf r) m = false := by
      intro m hm
      rcases Finset.mem_union.1 hm with hm | hm
      · obtain ⟨x, hx, rfl⟩ := Finset.mem_image.1 hm
        exact (hV x).1 hx
      · obtain ⟨x, hx, rfl⟩ := Finset.mem_image.1 hm
        simp [kills, (hO x).1 hx]
    have hcard : M.card ≤ 2 * r := by
      have hd : Disjoint V O := Finset.disjoint_left.2 (fun x h1 h2 => by
        have a := (hV x).1 h1
        rw [(hO x).1 h2] at a; cases a)
      calc M.card ≤ (V.image (fun x => (SQType.creation, x))).card + (O.image (fun x => (SQType.annihilation, x))).card := Finset.card_union_le _ _
        _ ≤ V.card + O.card := Nat.add_le_add Finset.card_image_le Finset.card_image_le
        _ = (V ∪ O).card := (Finset.card_union_of_disjoint hd).symm
        _ ≤ Fintype.card (Fin (2 * r)) := Finset.card_le_univ _
        _ = 2 * r := Fintype.card_fin _
    have hmem := cluster_wordSpan (op := fockOp ℚ (holeHalf r)) hV hO (fun l u => vdmR r l * vdmR r u) r hM1
    rw [← e1] at hmem
    have h1 := (h6 r hr).1
    exact wordSpan_zero (fock_car (R := ℚ) (holeHalf r)) hM2 (by omega) (wordSpan_mul hmem hmem)
  -- the residuals
  have res : ∀ r ∈ ranks, ∃ E e m, notebookHbar o ranks unique = .ok E ∧ contractExpr o cfg (Rational.ofInt 1) E minr maxr = .ok e ∧ e.toManybody o ['R'] = .ok m ∧
      (minr ≤ 2 * (r : Int) → 2 * (r : Int) ≤ maxr → ∃ text, generateEquation o fmt m r r = .ok text) := by
    intro r hr
    have h1 := (h6 r hr).1
    have inh : Inhabited (Fin (2 * r)) := ⟨⟨0, by omega⟩⟩
    obtain ⟨E, e, m, hE, he, hm, h⟩ := C96_notebook (R := ℚ) AbsoluteValue.abs habs hist hok (fmt := fmt) (cfg := cfg) (ranks := ranks) (unique := unique) (minr := minr) (maxr := maxr) ho hgen hfmt hne hnd h6
      (tensorCount r) (arrOf (tensorCount r)) (holeHalf r) (tensorCount_anti _ _) (fun lab key l u h _ => arrOf_eq _ lab key l u h)
    refine ⟨E, e, m, hE, he, hm, fun hmin hmax => ?_⟩
    rcases h r r (by omega) (by omega) with ⟨text, _, ht, _⟩ | ⟨_, h0⟩
    · exact ⟨text, ht⟩
    exfalso
    have hV : ∀ x, x ∈ Finset.univ.filter (fun x => holeHalf r x = false) ↔ holeHalf r x = false := by simp
    have hO : ∀ x, x ∈ Finset.univ.filter (fun x => holeHalf r x = true) ↔ holeHalf r x = true := by simp
    obtain ⟨hT, hT2⟩ := sys r hr inh (tensorCount r) (fun l u => by unfold tensorCount; rw [if_neg (by decide)]) _ _ hV hO
    obtain ⟨o1, o2, o3⟩ := occList_facts r
    obtain ⟨v1, v2, v3⟩ := virList_facts r
    have h0 := h0 (occList r) (virList r) o1 v1 o3 v3
    have hH : manyBody (tensorCount r ['H']) (normalProd (holeHalf r) (fockOp ℚ (holeHalf r))) 1 Finset.univ Finset.univ +
        manyBody (tensorCount r ['H']) (normalProd (holeHalf r) (fockOp ℚ (holeHalf r))) 2 Finset.univ Finset.univ =
        counter (fockOp ℚ (holeHalf r)) (Finset.univ.filter (fun x => holeHalf r x = false)) := by
      rw [manyBody_zero (n := 2) _ _ _ (fun l u hl => by unfold tensorCount; rw [if_pos rfl, if_neg (by rintro ⟨h, _⟩; omega)]), add_zero]
      unfold manyBody counter
      rw [Nat.factorial_one, Nat.cast_one, mul_one, div_one, one_smul, Fintype.piFinset_univ]
      rw [Finset.sum_filter]
      refine Fintype.sum_equiv (Equiv.funUnique (Fin 1) (Fin (2 * r))) _ _ (fun p => ?_)
      show _ = if holeHalf r (p default) = false then _ else _
      rw [Finset.sum_eq_single p]
      · unfold tensorCount
        by_cases hp : holeHalf r (p default) = false
        · have hp0 : holeHalf r (p 0) = false := hp
          rw [if_pos rfl, if_pos ⟨by simp, rfl, by simpa using hp0⟩, if_pos hp, one_smul]
          show normalProd _ _ ([_] ++ [_]) = _
          simp [normalProd, normalSign, kills, hp0]
        · have hp0 : ¬ holeHalf r (p 0) = false := hp
          rw [if_pos rfl, if_neg (by rintro ⟨_, _, h⟩; exact hp0 (by simpa using h)), if_neg hp, zero_smul]
      · intro q _ hq
        unfold tensorCount
        rw [if_pos rfl, if_neg (by rintro ⟨_, h, _⟩; exact hq (List.ofFn_injective h).symm), zero_smul]
      · intro h; exact absurd (Finset.mem_univ _) h
    rw [hH] at h0
    have key := residual_of_counter (fock_car (R := ℚ) (holeHalf r)) (fock_expectation (holeHalf r)) hV hO (vdmR_anti r) (vdmR_anti r) o3 v3 (v1.trans o1.symm) (hT.trans (by rw [o1])) ⟨2, by rw [pow_two]; exact hT2⟩
    rw [key, o1] at h0
    have := vdmR_ne v1 v2
    have := vdmR_ne o1 o2
    have : (r : ℚ) ≠ 0 := by
      have : r ≠ 0 := by omega
      exact_mod_cast this
    simp_all
  -- the energy
  have ener : ∀ r ∈ ranks, r = 1 ∨ r = 2 → ∃ E e m, notebookHbar o ranks unique = .ok E ∧ contractExpr o cfg (Rational.ofInt 1) E minr maxr = .ok e ∧ e.toManybody o ['R'] = .ok m ∧
      (minr ≤ 0 → 0 ≤ maxr → ∃ text, generateEquation o fmt m 0 0 = .ok text) := by
    intro r hr h12
    have h1 := (h6 r hr).1
    have inh : Inhabited (Fin (2 * r)) := ⟨⟨0, by omega⟩⟩
    obtain ⟨E, e, m, hE, he, hm, h⟩ := C96_notebook (R := ℚ) AbsoluteValue.abs habs hist hok (fmt := fmt) (cfg := cfg) (ranks := ranks) (unique := unique) (minr := minr) (maxr := maxr) ho hgen hfmt hne hnd h6
      (tensorAdj r) (arrOf (tensorAdj r)) (holeHalf r) (tensorAdj_anti _ _) (fun lab key l u h _ => arrOf_eq _ lab key l u h)
    refine ⟨E, e, m, hE, he, hm, fun hmin hmax => ?_⟩
    rcases h 0 0 (by simpa using hmin) (by simpa using hmax) with ⟨text, _, ht, _⟩ | ⟨_, h0⟩
    · exact ⟨text, ht⟩
    exfalso
    have hV : ∀ x, x ∈ Finset.univ.filter (fun x => holeHalf r x = false) ↔ holeHalf r x = false := by simp
    have hO : ∀ x, x ∈ Finset.univ.filter (fun x => holeHalf r x = true) ↔ holeHalf r x = true := by simp
    obtain ⟨hT, hT2⟩ := sys r hr inh (tensorAdj r) (fun l u => by unfold tensorAdj; rw [if_neg (by decide)]) _ _ hV hO
    obtain ⟨o1, o2, o3⟩ := occList_facts r
    obtain ⟨v1, v2, v3⟩ := virList_facts r
    have h0 := h0 [] [] rfl rfl (by simp) (by simp)
    have hz : ∀ n, n ≠ r → manyBody (tensorAdj r ['H']) (normalProd (holeHalf r) (fockOp ℚ (holeHalf r))) n Finset.univ Finset.univ = 0 := fun n hn => manyBody_zero _ _ _ (fun l u hl => by
      unfold tensorAdj
      rw [if_pos rfl]
      split
      · unfold vdmR
        rw [if_neg (by rw [hl]; exact hn), zero_mul]
      · rfl)
    have hH : manyBody (tensorAdj r ['H']) (normalProd (holeHalf r) (fockOp ℚ (holeHalf r))) 1 Finset.univ Finset.univ +
        manyBody (tensorAdj r ['H']) (normalProd (holeHalf r) (fockOp ℚ (holeHalf r))) 2 Finset.univ Finset.univ =
        manyBody (fun l u => if (∀ x ∈ l, holeHalf r x = true) ∧ ∀ x ∈ u, holeHalf r x = false then vdmR r l * vdmR r u else 0) (normalProd (holeHalf r) (fockOp ℚ (holeHalf r))) r Finset.univ Finset.univ := by
      have hf : tensorAdj r ['H'] = (fun l u => if (∀ x ∈ l, holeHalf r x = true) ∧ ∀ x ∈ u, holeHalf r x = false then vdmR r l * vdmR r u else 0) := by
        funext l u
        unfold tensorAdj
        rw [if_pos rfl]
      rcases h12 with e | e
      · rw [hz 2 (by omega), add_zero, hf]
        subst e; rfl
      · rw [hz 1 (by omega), zero_add, hf]
        subst e; rfl
    have hb : bra (fockOp ℚ (holeHalf r)) [] [] = 1 := by simp [bra]
    rw [hb, one_mul] at h0
    generalize (ranks.map (fun n => manyBody (tensorAdj r ['T']) (normalProd (holeHalf r) (fockOp ℚ (holeHalf r))) n (Finset.univ.filter (fun x => holeHalf r x = false)) (Finset.univ.filter (fun x => holeHalf r x = true)))).sum = T at h0 hT hT2
    generalize manyBody (tensorAdj r ['H']) (normalProd (holeHalf r) (fockOp ℚ (holeHalf r))) 1 Finset.univ Finset.univ + manyBody (tensorAdj r ['H']) (normalProd (holeHalf r) (fockOp ℚ (holeHalf r))) 2 Finset.univ Finset.univ = H at h0 hH
    have key := fun hH => energy_of_adjoint (H := H) (fock_car (R := ℚ) (holeHalf r)) (fock_expectation (holeHalf r)) hV hO (fun x => Finset.mem_univ x) (vdmR_anti r) (vdmR_anti r) h1 hT hT2 hH o3 v3 o1 v1 (vdmR_ne v1 v2) (vdmR_ne o1 o2)
    refine key (hH.trans ?_) h0
    congr!
  obtain ⟨r, rs, hrs⟩ := List.exists_cons_of_ne_nil hne
  obtain ⟨E, e, m, hE, he, hm, _⟩ := res r (by simp [hrs])
  refine ⟨E, e, m, hE, he, hm, fun n hn hmin hmax => ?_, fun h12 hmin hmax => ?_⟩
  · obtain ⟨E', e', m', hE', he', hm', h⟩ := res n hn
    rw [hE] at hE'; cases hE'
    rw [he] at he'; cases he'
    rw [hm] at hm'; cases hm'
    exact h hmin hmax
  · obtain ⟨r, hr, h⟩ : ∃ r ∈ ranks, r = 1 ∨ r = 2 := by
      rcases h12 with h | h
      · exact ⟨1, h, .inl rfl⟩
      · exact ⟨2, h, .inr rfl⟩
    obtain ⟨E', e', m', hE', he', hm', h⟩ := ener r hr h
    rw [hE] at hE'; cases hE'
    rw [he] at he'; cases he'
    rw [hm] at hm'; cases hm'
    exact h hmin hmax

-- all hypotheses hold for CCSDT: there are functions for the energy, the singles, the doubles and the triples
example : ∃ E e m, notebookHbar (runReg OSI.empty srHistory) [1, 2, 3] true = .ok E ∧ contractExpr (runReg OSI.empty srHistory) {} (Rational.ofInt 1) E 0 6 = .ok e ∧
    e.toManybody (runReg OSI.empty srHistory) ['R'] = .ok m ∧ ∀ n ∈ [0, 1, 2, 3], ∃ text, generateEquation (runReg OSI.empty srHistory) (cutAt 9) m n n = .ok text := by
  obtain ⟨E, e, m, h1, h2, h3, h4, h5⟩ := C99_keys srHistory (by refine ⟨?_, ?_, trivial⟩ <;> decide +kernel) (fmt := cutAt 9) (cfg := {}) (ranks := [1, 2, 3])
    (unique := true) (minr := 0) (maxr := 6) (by decide +kernel) srReg_names cut9_prints (by decide) (by decide) (by decide)
  refine ⟨E, e, m, h1, h2, h3, fun n hn => ?_⟩
  have h6 : n = 0 ∨ n ∈ [1, 2, 3] := by simpa using hn
  rcases h6 with rfl | h6
  · exact h5 (.inl (by simp)) (by omega) (by omega)
  · have : n ≤ 3 := (by decide : ∀ n ∈ [1, 2, 3], n ≤ 3) n h6
    exact h4 n h6 (by omega) (by omega)
end
end Wick
end Wicked
