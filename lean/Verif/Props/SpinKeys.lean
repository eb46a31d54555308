import Verif.Props.NotebookKeys
import Verif.Props.SpinNotebook
/-! # C99 for the notebooks that derive the spin-integrated equations -/
namespace Wicked
open CppLt CppEq Rational Lin GenOp

namespace Wick
section
variable {r : Nat}

theorem vdm_dup {l : List ℤ} (h : ¬ l.Nodup) : vdm l = 0 := by
  unfold vdm
  induction l with
  | nil => exact absurd List.nodup_nil h
  | cons a l ih =>
    rw [pairProd]
    by_cases hl : l.Nodup
    · have ha : a ∈ l := by
        by_contra ha
        exact h (List.nodup_cons.2 ⟨ha, hl⟩)
      have hz : (0 : ℚ) ∈ l.map (fun b : ℤ => (a : ℚ) - (b : ℚ)) := List.mem_map.2 ⟨a, ha, sub_self _⟩
      rw [List.prod_eq_zero hz, zero_mul]
    · rw [ih hl, mul_zero]

theorem vdmR_dup {l : List (Fin (2 * r))} (h : ¬ l.Nodup) : vdmR r l = 0 := by
  unfold vdmR
  split
  · refine vdm_dup (fun hn => h (List.Nodup.of_map _ hn))
  · rfl

/-- of the `r` occupied (and of the `r` unoccupied) orbitals the first `a` have spin up -/
def alphaHalf (r a : Nat) (x : Fin (2 * r)) : Bool := if x.val < r then decide (x.val < a) else decide (x.val - r < a)

theorem count_lists (r a : Nat) : (virList r).countP (alphaHalf r a) = (occList r).countP (alphaHalf r a) := by
  unfold virList occList
  rw [List.ofFn_eq_map, List.ofFn_eq_map, List.countP_map, List.countP_map]
  refine List.countP_congr (fun i _ => ?_)
  simp [alphaHalf, i.isLt]

theorem vdmR_count (a : Nat) {l : List (Fin (2 * r))} {b : Bool} (hl : ∀ x ∈ l, holeHalf r x = b) : vdmR r l = 0 ∨ l.countP (alphaHalf r a) = (occList r).countP (alphaHalf r a) := by
  by_cases hn : l.Nodup
  swap
  · exact .inl (vdmR_dup hn)
  by_cases hr : l.length = r
  swap
  · exact .inl (by unfold vdmR; rw [if_neg hr])
  right
  obtain ⟨o1, o2, o3⟩ := occList_facts r
  obtain ⟨v1, v2, v3⟩ := virList_facts r
  have hall : ∀ x : Fin (2 * r), holeHalf r x = true → x ∈ occList r := by
    intro x hx
    exact List.mem_ofFn.2 ⟨⟨x.val, by simpa [holeHalf] using hx⟩, rfl⟩
  have hall' : ∀ x : Fin (2 * r), holeHalf r x = false → x ∈ virList r := by
    intro x hx
    have h : r ≤ x.val := by simpa [holeHalf] using hx
    exact List.mem_ofFn.2 ⟨⟨x.val - r, by omega⟩, by ext; simp; omega⟩
  have hp : ∀ {w : List (Fin (2 * r))}, w.length = r → (∀ x ∈ l, x ∈ w) → l.Perm w := by
    intro w hw hs
    exact (List.subperm_of_subset hn hs).perm_of_length_le (by rw [hw, hr])
  cases b
  · rw [← count_lists, (hp v1 (fun x hx => hall' x (hl x hx))).countP_eq]
  · rw [(hp o1 (fun x hx => hall x (hl x hx))).countP_eq]

/-- the elements of a tensor that conserve spin -/
def spinPart {Ω : Type} (alpha : Ω → Bool) (T : Str → List Ω → List Ω → ℚ) (lab : Str) (l u : List Ω) : ℚ := if l.countP alpha = u.countP alpha then T lab l u else 0

theorem spinPart_conserves {Ω : Type} (alpha : Ω → Bool) (T : Str → List Ω → List Ω → ℚ) (lab : Str) : ConservesSpin alpha (spinPart alpha T lab) := fun _ _ _ h => if_neg h

theorem spinPart_anti {Ω A : Type} (alpha : Ω → Bool) {T : Str → List Ω → List Ω → ℚ} {dom : Int → Finset Ω} {op : SQType → Ω → A} (h : (⟨dom, T, op⟩ : OrbSystem Ω ℚ A).Antisymmetric) :
    (⟨dom, spinPart alpha T, op⟩ : OrbSystem Ω ℚ A).Antisymmetric := by
  intro lab
  have e : ∀ (pre : List Ω) a b post, (pre ++ b :: a :: post).countP alpha = (pre ++ a :: b :: post).countP alpha := fun pre a b post => List.Perm.countP_eq _ (List.Perm.append_left _ (List.Perm.swap _ _ _))
  refine ⟨fun pre a b post u => ?_, fun l pre a b post => ?_⟩
  · have h1 : T lab _ _ = -T lab _ _ := (h lab).1 pre a b post u
    show spinPart _ _ _ _ _ = -spinPart _ _ _ _ _
    unfold spinPart
    rw [e, h1]
    split <;> simp
  · have h1 : T lab _ _ = -T lab _ _ := (h lab).2 l pre a b post
    show spinPart _ _ _ _ _ = -spinPart _ _ _ _ _
    unfold spinPart
    rw [e, h1]
    split <;> simp

theorem manyBody_congr {Ω R B : Type} [DecidableEq Ω] [CommRing R] [Ring B] [Algebra R B] [Algebra ℚ B] {T T' : List Ω → List Ω → R} (N : List (SQType × Ω) → B) {n : Nat} {C A : Finset Ω}
    (h : ∀ l u, l.length = n → u.length = n → (∀ x ∈ l, x ∈ C) → (∀ x ∈ u, x ∈ A) → T l u = T' l u) : manyBody T N n C A = manyBody T' N n C A := by
  unfold manyBody
  congr 1
  refine Finset.sum_congr rfl (fun p hp => Finset.sum_congr rfl (fun q hq => ?_))
  rw [h _ _ (by simp) (by simp) ?_ ?_]
  · intro x hx
    obtain ⟨i, rfl⟩ := List.mem_ofFn.1 hx
    exact Fintype.mem_piFinset.1 hp i
  · intro x hx
    obtain ⟨i, rfl⟩ := List.mem_ofFn.1 hx
    exact Fintype.mem_piFinset.1 hq i

/-- the Hamiltonian of `tensorCount` -/
theorem count_hamiltonian (r : Nat) [Inhabited (Fin (2 * r))] : manyBody (tensorCount r ['H']) (normalProd (holeHalf r) (fockOp ℚ (holeHalf r))) 1 Finset.univ Finset.univ +
    manyBody (tensorCount r ['H']) (normalProd (holeHalf r) (fockOp ℚ (holeHalf r))) 2 Finset.univ Finset.univ = counter (fockOp ℚ (holeHalf r)) (Finset.univ.filter (fun x => holeHalf r x = false)) := by
  rw [manyBody_zero (n := 2) _ _ _ (fun l u hl => by unfold tensorCount; rw [if_pos rfl, if_neg (by rintro ⟨h, _⟩; omega)]), add_zero]
  unfold manyBody counter
  rw [Nat.factorial_one, Nat.cast_one, mul_one, div_one, one_smul, Fintype.piFinset_univ]
  rw [Finset.sum_filter]
  refine Fintype.sum_equiv (Equiv.funUnique (Fin 1) (Fin (2 * r))) _ _ (fun p => ?_)
  show _ = if holeHalf r (p default) = false then _ else _
  rw [Finset.sum_eq_single p]
  · unfold tensorCount
    by_cases hp : holeHalf r (p default) = false
    · have hp0 : holeHalf r (p 0) = false := hp
      rw [if_pos rfl, if_pos ⟨by simp, rfl, by simpa using hp0⟩, if_pos hp, one_smul]
      show normalProd _ _ ([_] ++ [_]) = _
      simp [normalProd, normalSign, kills, hp0]
    · have hp0 : ¬ holeHalf r (p 0) = false := hp
      rw [if_pos rfl, if_neg (by rintro ⟨_, _, h⟩; exact hp0 (by simpa using h)), if_neg hp, zero_smul]
  · intro q _ hq
    unfold tensorCount
    rw [if_pos rfl, if_neg (by rintro ⟨_, h, _⟩; exact hq (List.ofFn_injective h).symm), zero_smul]
  · intro h; exact absurd (Finset.mem_univ _) h

/-- two excitations of all electrons are impossible -/
theorem cluster_sq (h1 : 1 ≤ r) [Inhabited (Fin (2 * r))] {V O : Finset (Fin (2 * r))} (hV : ∀ x, x ∈ V ↔ holeHalf r x = false) (hO : ∀ x, x ∈ O ↔ holeHalf r x = true) (t : List (Fin (2 * r)) → List (Fin (2 * r)) → ℚ) :
    manyBody t (normalProd (holeHalf r) (fockOp ℚ (holeHalf r))) r V O * manyBody t (normalProd (holeHalf r) (fockOp ℚ (holeHalf r))) r V O = 0 := by
  let M : Finset (SQType × Fin (2 * r)) := V.image (fun x => (.creation, x)) ∪ O.image (fun x => (.annihilation, x))
  have hM1 : ∀ m, kills (holeHalf r) m = false → m ∈ M := by
    rintro ⟨s, x⟩ hm
    cases s
    · exact Finset.mem_union_left _ (Finset.mem_image.2 ⟨x, (hV x).2 (by simpa [kills] using hm), rfl⟩)
    · exact Finset.mem_union_right _ (Finset.mem_image.2 ⟨x, (hO x).2 (by simpa [kills] using hm), rfl⟩)
  have hM2 : ∀ m ∈ M, kills (holeHalf r) m = false := by
    intro m hm
    rcases Finset.mem_union.1 hm with hm | hm
    · obtain ⟨x, hx, rfl⟩ := Finset.mem_image.1 hm
      exact (hV x).1 hx
    · obtain ⟨x, hx, rfl⟩ := Finset.mem_image.1 hm
      simp [kills, (hO x).1 hx]
  have hcard : M.card ≤ 2 * r := by
    have hd : Disjoint V O := Finset.disjoint_left.2 (fun x h1 h2 => by
      have a := (hV x).1 h1
      rw [(hO x).1 h2] at a; cases a)
    calc M.card ≤ (V.image (fun x => (SQType.creation, x))).card + (O.image (fun x => (SQType.annihilation, x))).card := Finset.card_union_le _ _
      _ ≤ V.card + O.card := Nat.add_le_add Finset.card_image_le Finset.card_image_le
      _ = (V ∪ O).card := (Finset.card_union_of_disjoint hd).symm
      _ ≤ Fintype.card (Fin (2 * r)) := Finset.card_le_univ _
      _ = 2 * r := Fintype.card_fin _
  have hmem := cluster_wordSpan (op := fockOp ℚ (holeHalf r)) hV hO t r hM1
  exact wordSpan_zero (fock_car (R := ℚ) (holeHalf r)) hM2 (by omega) (wordSpan_mul hmem hmem)

/-- the value of the cluster operator of the notebook for a tensor that excites all electrons -/
theorem spin_cluster_value (a : Nat) {triples : Bool} (h1 : 1 ≤ r) (h3 : r ≤ if triples then 3 else 2) {V O : Finset (Fin (2 * r))} (hV : ∀ x, x ∈ V ↔ holeHalf r x = false) (hO : ∀ x, x ∈ O ↔ holeHalf r x = true)
    {t : List (Fin (2 * r)) → List (Fin (2 * r)) → ℚ} (ht : ∀ l u, t l u = if l.countP (alphaHalf r a) = u.countP (alphaHalf r a) then vdmR r l * vdmR r u else 0) :
    let N := normalProd (holeHalf r) (fockOp ℚ (holeHalf r))
    manyBody t N 1 V O + manyBody t N 2 V O + (if triples then manyBody t N 3 V O else 0) = manyBody (fun l u => vdmR r l * vdmR r u) N r V O := by
  intro N
  have hz : ∀ n, n ≠ r → manyBody t N n V O = 0 := fun n hn => manyBody_zero _ _ _ (fun l u hl => by
    rw [ht]
    have h0 : vdmR r l = 0 := by unfold vdmR; rw [if_neg (by rw [hl]; exact hn)]
    rw [h0, zero_mul, ite_self])
  have hv : manyBody t N r V O = manyBody (fun l u => vdmR r l * vdmR r u) N r V O := manyBody_congr _ (fun l u _ _ hl hu => by
    rw [ht]
    rcases vdmR_count a (fun x hx => (hV x).1 (hl x hx)) with h | h
    · rw [h, zero_mul, ite_self]
    rcases vdmR_count a (fun x hx => (hO x).1 (hu x hx)) with h' | h'
    · rw [h', mul_zero, ite_self]
    rw [if_pos (h.trans h'.symm)])
  rw [← hv]
  have hr : r = 1 ∨ r = 2 ∨ (r = 3 ∧ triples = true) := by
    cases triples with
    | false => have h3 : r ≤ 2 := h3; omega
    | true =>
      have h3 : r ≤ 3 := h3
      have : r = 1 ∨ r = 2 ∨ r = 3 := by omega
      simpa using this
  rcases hr with e | e | ⟨e, rfl⟩
  · rw [hz 2 (by omega), hz 3 (by omega), ite_self, add_zero, add_zero]
    subst e; rfl
  · rw [hz 1 (by omega), hz 3 (by omega), ite_self, add_zero, zero_add]
    subst e; rfl
  · rw [hz 1 (by omega), hz 2 (by omega), if_pos rfl, zero_add, zero_add]
    subst e; rfl

/-- numbers of operators in the four spaces -/
def inSpaces (o v O V : Nat) (s : Nat) : Nat := if s = 0 then o else if s = 1 then v else if s = 2 then O else if s = 3 then V else 0

theorem repeatLabels_spin (n : Nat → Nat) : repeatLabels spinO n = List.replicate (n 0) 'o' ++ (List.replicate (n 1) 'v' ++ (List.replicate (n 2) 'O' ++ List.replicate (n 3) 'V')) := by
  have h : spinO.spaces.map (·.label) = ['o', 'v', 'O', 'V'] := by decide +kernel
  have e : ∀ (l : List OrbitalSpace) (k : Nat), (l.zipIdx k).flatMap (fun p => List.replicate (n p.2) p.1.label) = ((l.map (·.label)).zipIdx k).flatMap (fun p => List.replicate (n p.2) p.1) := by
    intro l
    induction l with
    | nil => intro k; rfl
    | cons a l ih => intro k; simp [List.zipIdx_cons, ih]
  unfold repeatLabels
  rw [e, h]
  simp [List.zipIdx_cons]

theorem forall2_half {a b : Nat} (hr : a + b = r) {w : List (Fin (2 * r))} {f : Fin r → Fin (2 * r)} (hw : w = List.ofFn f) {x y : Char} {dom : Char → Finset (Fin (2 * r))}
    (h1 : ∀ i : Fin r, i.val < a → f i ∈ dom x) (h2 : ∀ i : Fin r, a ≤ i.val → f i ∈ dom y) : List.Forall₂ (· ∈ ·) w ((List.replicate a x ++ List.replicate b y).map dom) := by
  subst hw
  rw [List.forall₂_iff_get]
  refine ⟨by simp [hr], fun i hi hi' => ?_⟩
  have hi : i < r := by simpa using hi
  simp only [List.get_eq_getElem, List.getElem_ofFn, List.getElem_map]
  by_cases ha : i < a
  · rw [List.getElem_append_left (by simpa using ha), List.getElem_replicate]
    exact h1 ⟨i, hi⟩ ha
  · rw [List.getElem_append_right (by simpa using ha), List.getElem_replicate]
    exact h2 ⟨i, hi⟩ (not_lt.1 ha)

/-- **C99** for the spin-integrated notebooks: for `a` electrons with spin up and `b` with spin down, `a + b` at most the rank of the cluster operator, there is a function for the residual equations
`mbeq["o...oO...O|V...Vv...v"]` (no KeyError), and one for the energy `mbeq["|"]`. -/
theorem C99_spin {fmt : Rational → Str} {cfg : WickCfg} {triples : Bool} {minr maxr : Int} (hfmt : PrintsNine fmt) :
    let o := runReg OSI.empty spinNotebook
    ∃ E e m, spinHbar o triples = .ok E ∧ contractExpr o cfg (Rational.ofInt 1) E minr maxr = .ok e ∧ e.toManybody o ['R'] = .ok m ∧
      (∀ a b : Nat, 1 ≤ a + b → a + b ≤ (if triples then 3 else 2) → minr ≤ 2 * ((a : Int) + b) → 2 * ((a : Int) + b) ≤ maxr →
        ∃ text, generateEquationSpace o fmt m (a + b) (a + b) (List.replicate a 'o' ++ List.replicate b 'O' ++ '|' :: (List.replicate b 'V' ++ List.replicate a 'v')) = .ok text) ∧
      (minr ≤ 0 → 0 ≤ maxr → ∃ text, generateEquationSpace o fmt m 0 0 ['|'] = .ok text) := by
  intro o
  have habs : ∀ c : ℚ, (AbsoluteValue.abs : AbsoluteValue ℚ ℚ) (algebraMap ℚ ℚ c) = ((|c| : ℚ) : ℚ) := by intro c; simp
  -- the residuals
  have res : ∀ a b : Nat, 1 ≤ a + b → a + b ≤ (if triples then 3 else 2) → ∃ E e m, spinHbar o triples = .ok E ∧ contractExpr o cfg (Rational.ofInt 1) E minr maxr = .ok e ∧ e.toManybody o ['R'] = .ok m ∧
      (minr ≤ 2 * ((a : Int) + b) → 2 * ((a : Int) + b) ≤ maxr →
        ∃ text, generateEquationSpace o fmt m (a + b) (a + b) (List.replicate a 'o' ++ List.replicate b 'O' ++ '|' :: (List.replicate b 'V' ++ List.replicate a 'v')) = .ok text) := by
    intro a b h1 h3
    obtain ⟨r, hr⟩ : ∃ r, a + b = r := ⟨_, rfl⟩
    rw [hr] at h1 h3
    have inh : Inhabited (Fin (2 * r)) := ⟨⟨0, by omega⟩⟩
    obtain ⟨E, e, m, hE, he, hm, h⟩ := C96_spin (R := ℚ) AbsoluteValue.abs habs (fmt := fmt) (cfg := cfg) (triples := triples) (minr := minr) (maxr := maxr) hfmt
      (spinPart (alphaHalf r a) (tensorCount r)) (arrOf (spinPart (alphaHalf r a) (tensorCount r))) (holeHalf r) (alphaHalf r a) (spinPart_anti _ (tensorCount_anti _ _)) (spinPart_conserves _ _)
      (fun lab key l u h => arrOf_eq _ lab key l u h)
    refine ⟨E, e, m, hE, he, hm, fun hmin hmax => ?_⟩
    have hu : repeatLabels spinO (inSpaces a 0 b 0) = List.replicate a 'o' ++ List.replicate b 'O' := by rw [repeatLabels_spin]; simp [inSpaces]
    have hl : repeatLabels spinO (inSpaces 0 a 0 b) = List.replicate a 'v' ++ List.replicate b 'V' := by rw [repeatLabels_spin]; simp [inSpaces]
    have hk : spaceKey spinO (inSpaces a 0 b 0) (inSpaces 0 a 0 b) = List.replicate a 'o' ++ List.replicate b 'O' ++ '|' :: (List.replicate b 'V' ++ List.replicate a 'v') := by
      unfold spaceKey
      rw [hu, hl]
      simp
    have hlu : (repeatLabels spinO (inSpaces a 0 b 0)).length = a + b := by rw [hu]; simp
    have hll : (repeatLabels spinO (inSpaces 0 a 0 b)).length = a + b := by rw [hl]; simp
    rcases h (inSpaces a 0 b 0) (inSpaces 0 a 0 b) (a + b) (a + b) hlu.symm hll.symm (by push_cast; omega) (by push_cast; omega) with ⟨text, _, ht, _⟩ | ⟨_, h0⟩
    · rw [hk] at ht
      exact ⟨text, ht⟩
    exfalso
    have hV : ∀ x, x ∈ Finset.univ.filter (fun x => holeHalf r x = false) ↔ holeHalf r x = false := by simp
    have hO : ∀ x, x ∈ Finset.univ.filter (fun x => holeHalf r x = true) ↔ holeHalf r x = true := by simp
    obtain ⟨o1, o2, o3⟩ := occList_facts r
    obtain ⟨v1, v2, v3⟩ := virList_facts r
    have h0 := h0 (occList r) (virList r) (by
        rw [hu]
        refine forall2_half hr rfl (fun i hi => ?_) (fun i hi => ?_)
        · simp [holeHalf, alphaHalf, hi]
        · simp [holeHalf, alphaHalf, hi]) (by
        rw [hl]
        refine forall2_half hr rfl (fun i hi => ?_) (fun i hi => ?_)
        · simp [holeHalf, alphaHalf, hi]
        · simp [holeHalf, alphaHalf, hi]) o3 v3
    have hT := spin_cluster_value a (triples := triples) h1 h3 hV hO (t := spinPart (alphaHalf r a) (tensorCount r) ['T']) (fun l u => by unfold spinPart tensorCount; rw [if_neg (show ¬ (['T'] : Str) = ['H'] by decide)])
    have hH : manyBody (spinPart (alphaHalf r a) (tensorCount r) ['H']) (normalProd (holeHalf r) (fockOp ℚ (holeHalf r))) 1 Finset.univ Finset.univ +
        manyBody (spinPart (alphaHalf r a) (tensorCount r) ['H']) (normalProd (holeHalf r) (fockOp ℚ (holeHalf r))) 2 Finset.univ Finset.univ =
        counter (fockOp ℚ (holeHalf r)) (Finset.univ.filter (fun x => holeHalf r x = false)) := by
      have hf : spinPart (alphaHalf r a) (tensorCount r) ['H'] = tensorCount r ['H'] := by
        funext l u
        unfold spinPart
        by_cases e : l.countP (alphaHalf r a) = u.countP (alphaHalf r a)
        · rw [if_pos e]
        · rw [if_neg e]
          unfold tensorCount
          rw [if_pos rfl, if_neg]
          rintro ⟨_, rfl, _⟩
          exact e rfl
      rw [hf]
      exact count_hamiltonian r
    rw [hH] at h0
    have hT2 := cluster_sq h1 hV hO (fun l u => vdmR r l * vdmR r u)
    rw [← hT] at hT2
    have key := residual_of_counter (fock_car (R := ℚ) (holeHalf r)) (fock_expectation (holeHalf r)) hV hO (vdmR_anti r) (vdmR_anti r) o3 v3 (v1.trans o1.symm) (hT.trans (by rw [o1])) ⟨2, by rw [pow_two]; exact hT2⟩
    rw [key, o1] at h0
    have hr0 : (r : ℚ) ≠ 0 := by
      have : r ≠ 0 := by omega
      exact_mod_cast this
    exact mul_ne_zero hr0 (mul_ne_zero (vdmR_ne v1 v2) (vdmR_ne o1 o2)) h0
  -- the energy
  have ener : ∃ E e m, spinHbar o triples = .ok E ∧ contractExpr o cfg (Rational.ofInt 1) E minr maxr = .ok e ∧ e.toManybody o ['R'] = .ok m ∧
      (minr ≤ 0 → 0 ≤ maxr → ∃ text, generateEquationSpace o fmt m 0 0 ['|'] = .ok text) := by
    have h1 : 1 ≤ 1 := le_refl 1
    have inh : Inhabited (Fin (2 * 1)) := ⟨⟨0, by omega⟩⟩
    obtain ⟨E, e, m, hE, he, hm, h⟩ := C96_spin (R := ℚ) AbsoluteValue.abs habs (fmt := fmt) (cfg := cfg) (triples := triples) (minr := minr) (maxr := maxr) hfmt
      (spinPart (alphaHalf 1 1) (tensorAdj 1)) (arrOf (spinPart (alphaHalf 1 1) (tensorAdj 1))) (holeHalf 1) (alphaHalf 1 1) (spinPart_anti _ (tensorAdj_anti _ _)) (spinPart_conserves _ _)
      (fun lab key l u h => arrOf_eq _ lab key l u h)
    refine ⟨E, e, m, hE, he, hm, fun hmin hmax => ?_⟩
    have hu : repeatLabels spinO (inSpaces 0 0 0 0) = [] := by rw [repeatLabels_spin]; rfl
    rcases h (inSpaces 0 0 0 0) (inSpaces 0 0 0 0) 0 0 (by rw [hu]; rfl) (by rw [hu]; rfl) (by simpa using hmin) (by simpa using hmax) with ⟨text, _, ht, _⟩ | ⟨_, h0⟩
    · unfold spaceKey at ht
      rw [hu] at ht
      exact ⟨text, ht⟩
    exfalso
    have hV : ∀ x, x ∈ Finset.univ.filter (fun x => holeHalf 1 x = false) ↔ holeHalf 1 x = false := by simp
    have hO : ∀ x, x ∈ Finset.univ.filter (fun x => holeHalf 1 x = true) ↔ holeHalf 1 x = true := by simp
    obtain ⟨o1, o2, o3⟩ := occList_facts 1
    obtain ⟨v1, v2, v3⟩ := virList_facts 1
    have h0 := h0 [] [] (by rw [hu]; exact .nil) (by rw [hu]; exact .nil) (by simp) (by simp)
    have hT := spin_cluster_value 1 (triples := triples) h1 (by cases triples <;> decide) hV hO (t := spinPart (alphaHalf 1 1) (tensorAdj 1) ['T']) (fun l u => by unfold spinPart tensorAdj; rw [if_neg (show ¬ (['T'] : Str) = ['H'] by decide)])
    have hT2 := cluster_sq h1 hV hO (fun l u => vdmR 1 l * vdmR 1 u)
    rw [← hT] at hT2
    have hH : manyBody (spinPart (alphaHalf 1 1) (tensorAdj 1) ['H']) (normalProd (holeHalf 1) (fockOp ℚ (holeHalf 1))) 1 Finset.univ Finset.univ +
        manyBody (spinPart (alphaHalf 1 1) (tensorAdj 1) ['H']) (normalProd (holeHalf 1) (fockOp ℚ (holeHalf 1))) 2 Finset.univ Finset.univ =
        manyBody (fun l u => if (∀ x ∈ l, holeHalf 1 x = true) ∧ ∀ x ∈ u, holeHalf 1 x = false then vdmR 1 l * vdmR 1 u else 0) (normalProd (holeHalf 1) (fockOp ℚ (holeHalf 1))) 1 Finset.univ Finset.univ := by
      have hf : spinPart (alphaHalf 1 1) (tensorAdj 1) ['H'] = (fun l u => if (∀ x ∈ l, holeHalf 1 x = true) ∧ ∀ x ∈ u, holeHalf 1 x = false then vdmR 1 l * vdmR 1 u else 0) := by
        funext l u
        unfold spinPart tensorAdj
        rw [if_pos rfl]
        split
        · rfl
        · rename_i e
          split
          · rename_i hlu
            rcases vdmR_count 1 hlu.1 with h | h
            · rw [h, zero_mul]
            rcases vdmR_count 1 hlu.2 with h' | h'
            · rw [h', mul_zero]
            exact absurd (h.trans h'.symm) e
          · rfl
      rw [hf, manyBody_zero (n := 2), add_zero]
      intro l u hl
      split
      · unfold vdmR
        rw [if_neg (by rw [hl]; decide), zero_mul]
      · rfl
    have hb : bra (fockOp ℚ (holeHalf 1)) [] [] = 1 := by simp [bra]
    rw [hb, one_mul] at h0
    have key := fun T H hT hT2 hH => energy_of_adjoint (T := T) (H := H) (fock_car (R := ℚ) (holeHalf 1)) (fock_expectation (holeHalf 1)) hV hO (fun x => Finset.mem_univ x) (vdmR_anti 1) (vdmR_anti 1) h1 hT hT2 hH o3 v3 o1 v1 (vdmR_ne v1 v2) (vdmR_ne o1 o2)
    refine key _ _ hT hT2 (hH.trans ?_) h0
    congr!
  obtain ⟨E, e, m, hE, he, hm, hz⟩ := ener
  refine ⟨E, e, m, hE, he, hm, fun a b h1 h3 hmin hmax => ?_, hz⟩
  obtain ⟨E', e', m', hE', he', hm', h⟩ := res a b h1 h3
  rw [hE] at hE'; cases hE'
  rw [he] at he'; cases he'
  rw [hm] at hm'; cases hm'
  exact h hmin hmax

-- the ten equations of the CCSDT notebook, with the ranks of the notebook
example : ∃ E e m, spinHbar (runReg OSI.empty spinNotebook) true = .ok E ∧ contractExpr (runReg OSI.empty spinNotebook) {} (Rational.ofInt 1) E 0 6 = .ok e ∧
    e.toManybody (runReg OSI.empty spinNotebook) ['R'] = .ok m ∧
    ∀ p ∈ [(0, "|"), (1, "o|v"), (1, "O|V"), (2, "oo|vv"), (2, "OO|VV"), (2, "oO|Vv"), (3, "ooo|vvv"), (3, "OOO|VVV"), (3, "oOO|VVv"), (3, "ooO|Vvv")],
      ∃ text, generateEquationSpace (runReg OSI.empty spinNotebook) (cutAt 9) m p.1 p.1 p.2.toList = .ok text := by
  obtain ⟨E, e, m, h1, h2, h3, h4, h5⟩ := C99_spin (fmt := cutAt 9) (cfg := {}) (triples := true) (minr := 0) (maxr := 6) cut9_prints
  refine ⟨E, e, m, h1, h2, h3, fun p hp => ?_⟩
  have h6 : p = (0, "|") ∨ p ∈ [(1, 0, "o|v"), (0, 1, "O|V"), (2, 0, "oo|vv"), (0, 2, "OO|VV"), (1, 1, "oO|Vv"), (3, 0, "ooo|vvv"), (0, 3, "OOO|VVV"), (1, 2, "oOO|VVv"), (2, 1, "ooO|Vvv")].map
    (fun q : Nat × Nat × String => (q.1 + q.2.1, q.2.2)) := by simpa using hp
  rcases h6 with rfl | h6
  · exact h5 (by omega) (by omega)
  · obtain ⟨⟨a, b, key⟩, hq, rfl⟩ := List.mem_map.1 h6
    have hk := (by decide : ∀ q ∈ [(1, 0, "o|v"), (0, 1, "O|V"), (2, 0, "oo|vv"), (0, 2, "OO|VV"), (1, 1, "oO|Vv"), (3, 0, "ooo|vvv"), (0, 3, "OOO|VVV"), (1, 2, "oOO|VVv"), (2, 1, "ooO|Vvv")],
      1 ≤ q.1 + q.2.1 ∧ q.1 + q.2.1 ≤ 3 ∧ List.replicate q.1 'o' ++ List.replicate q.2.1 'O' ++ '|' :: (List.replicate q.2.1 'V' ++ List.replicate q.1 'v') = q.2.2.toList) (a, b, key) hq
    have h := h4 a b hk.1 hk.2.1 (by omega) (by have := hk.2.1; simp at this; omega)
    rwa [hk.2.2] at h
end
end Wick
end Wicked
