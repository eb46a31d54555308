import Verif.Proofs.GnoAnti
/-! Contractions of a reference; existence and uniqueness of generalised normal products; expectation values -/
namespace Wicked
namespace Gno
section
variable {Ω R B : Type} [DecidableEq Ω] [CommRing R] [Ring B] [Algebra R B]

theorem creOrbs_append (l m : List (SQType × Ω)) : creOrbs (l ++ m) = creOrbs l ++ creOrbs m := List.filterMap_append
theorem annOrbs_append (l m : List (SQType × Ω)) : annOrbs (l ++ m) = annOrbs l ++ annOrbs m := List.filterMap_append
theorem creOrbs_cre (p : Ω) (l : List (SQType × Ω)) : creOrbs ((.creation, p) :: l) = p :: creOrbs l := rfl
theorem creOrbs_ann (p : Ω) (l : List (SQType × Ω)) : creOrbs ((.annihilation, p) :: l) = creOrbs l := rfl
theorem annOrbs_cre (p : Ω) (l : List (SQType × Ω)) : annOrbs ((.creation, p) :: l) = annOrbs l := rfl
theorem annOrbs_ann (p : Ω) (l : List (SQType × Ω)) : annOrbs ((.annihilation, p) :: l) = p :: annOrbs l := rfl

theorem orbs_length (l : List (SQType × Ω)) : l.length = (creOrbs l).length + (annOrbs l).length := by
  induction l with
  | nil => rfl
  | cons m l ih =>
    obtain ⟨s, p⟩ := m
    cases s
    · rw [creOrbs_cre, annOrbs_cre, List.length_cons, List.length_cons, ih]; omega
    · rw [creOrbs_ann, annOrbs_ann, List.length_cons, List.length_cons, ih]; omega

theorem contraction_big (ρ : Reference Ω R) {l : List (SQType × Ω)} (h : l.length ≠ 2) : ρ.contraction l =
    if 2 ≤ (creOrbs l).length ∧ (creOrbs l).length = (annOrbs l).length then ((creFirstSign l : Int) : R) * ρ.cumulant (creOrbs l) (annOrbs l) else 0 := by
  rcases l with _ | ⟨⟨s, p⟩, _ | ⟨⟨t, q⟩, _ | ⟨m, l⟩⟩⟩
  · rfl
  · cases s <;> rfl
  · simp at h
  · cases s <;> cases t <;> rfl

theorem contraction_odd (ρ : Reference Ω R) (l : List (SQType × Ω)) (h : ¬ Even l.length) : ρ.contraction l = 0 := by
  have h2 : l.length ≠ 2 := fun e => h (e ▸ even_two)
  rw [contraction_big ρ h2, if_neg]
  rintro ⟨_, he⟩
  apply h
  rw [orbs_length, he]
  exact ⟨_, rfl⟩

/-- the anticommutator of two operators -/
def acom (R : Type) [CommRing R] : SQType × Ω → SQType × Ω → R
  | (.creation, p), (.annihilation, q) => if p = q then 1 else 0
  | (.annihilation, q), (.creation, p) => if p = q then 1 else 0
  | _, _ => 0

theorem contraction_pair (ρ : Reference Ω R) (x y : SQType × Ω) : ρ.contraction [x, y] + ρ.contraction [y, x] = acom R x y := by
  obtain ⟨s, p⟩ := x
  obtain ⟨t, q⟩ := y
  cases s <;> cases t
  · have h1 : ρ.contraction [(.creation, p), (.creation, q)] = 0 := rfl
    have h2 : ρ.contraction [(.creation, q), (.creation, p)] = 0 := rfl
    rw [h1, h2, add_zero]; rfl
  · show ρ.gamma p q + ((if p = q then 1 else 0) - ρ.gamma p q) = if p = q then 1 else 0
    ring
  · show ((if q = p then 1 else 0) - ρ.gamma q p) + ρ.gamma q p = if q = p then 1 else 0
    ring
  · have h1 : ρ.contraction [(.annihilation, p), (.annihilation, q)] = 0 := rfl
    have h2 : ρ.contraction [(.annihilation, q), (.annihilation, p)] = 0 := rfl
    rw [h1, h2, add_zero]; rfl

theorem sign_mixed (pre : List (SQType × Ω)) (p q : Ω) (post : List (SQType × Ω)) :
    creFirstSign (pre ++ (.creation, p) :: (.annihilation, q) :: post) = - creFirstSign (pre ++ (.annihilation, q) :: (.creation, p) :: post) := by
  induction pre with
  | nil =>
    simp only [List.nil_append, creFirstSign, creOrbs_cre, List.length_cons, pow_succ]
    ring
  | cons m pre ih =>
    obtain ⟨s, x⟩ := m
    cases s
    · simpa only [List.cons_append, creFirstSign] using ih
    · simp only [List.cons_append, creFirstSign, ih]
      simp only [creOrbs_append, creOrbs_cre, creOrbs_ann]
      ring

theorem sign_same_type (pre : List (SQType × Ω)) (s : SQType) (p q : Ω) (post : List (SQType × Ω)) :
    creFirstSign (pre ++ (s, p) :: (s, q) :: post) = creFirstSign (pre ++ (s, q) :: (s, p) :: post) := by
  induction pre with
  | nil => cases s <;> simp only [List.nil_append, creFirstSign, creOrbs_ann]
  | cons m pre ih =>
    obtain ⟨t, x⟩ := m
    cases t
    · simpa only [List.cons_append, creFirstSign] using ih
    · simp only [List.cons_append, creFirstSign, ih]
      congr 2
      cases s <;> simp only [creOrbs_append, creOrbs_cre, creOrbs_ann, List.length_append, List.length_cons]

/-- the cumulants that count are antisymmetric -/
def AntiCum (ρ : Reference Ω R) : Prop :=
  (∀ pre a b post u, (pre ++ a :: b :: post).length = u.length → ρ.cumulant (pre ++ a :: b :: post) u = - ρ.cumulant (pre ++ b :: a :: post) u) ∧
  (∀ l pre a b post, l.length = (pre ++ a :: b :: post).length → ρ.cumulant l (pre ++ a :: b :: post) = - ρ.cumulant l (pre ++ b :: a :: post))

theorem contraction_anti {ρ : Reference Ω R} (hρ : AntiCum ρ) (pre : List (SQType × Ω)) (x y : SQType × Ω) (post : List (SQType × Ω)) (h : pre ++ post ≠ []) :
    ρ.contraction (pre ++ x :: y :: post) = - ρ.contraction (pre ++ y :: x :: post) := by
  have hl : (pre ++ post).length ≠ 0 := fun h' => h (List.length_eq_zero_iff.1 h')
  rw [List.length_append] at hl
  rw [contraction_big ρ (by simp only [List.length_append, List.length_cons]; omega), contraction_big ρ (by simp only [List.length_append, List.length_cons]; omega)]
  obtain ⟨s, p⟩ := x
  obtain ⟨t, q⟩ := y
  cases s <;> cases t
  · rw [sign_same_type]
    simp only [creOrbs_append, annOrbs_append, creOrbs_cre, annOrbs_cre, List.length_append, List.length_cons]
    split
    · rename_i hc
      rw [hρ.1 _ _ _ _ _ (by simp only [List.length_append, List.length_cons]; omega), mul_neg]
    · simp
  · rw [sign_mixed]
    simp only [creOrbs_append, annOrbs_append, creOrbs_cre, annOrbs_cre, creOrbs_ann, annOrbs_ann]
    split
    · push_cast; ring
    · simp
  · rw [sign_mixed]
    simp only [creOrbs_append, annOrbs_append, creOrbs_cre, annOrbs_cre, creOrbs_ann, annOrbs_ann]
    split
    · push_cast; ring
    · simp
  · rw [sign_same_type]
    simp only [creOrbs_append, annOrbs_append, creOrbs_ann, annOrbs_ann, List.length_append, List.length_cons]
    split
    · rename_i hc
      rw [hρ.2 _ _ _ _ _ (by simp only [List.length_append, List.length_cons]; omega), mul_neg]
    · simp

theorem car_acom {op : SQType → Ω → B} (h : IsCAR op) (x y : SQType × Ω) : op x.1 x.2 * op y.1 y.2 + op y.1 y.2 * op x.1 x.2 = algebraMap R B (acom R x y) := by
  obtain ⟨s, p⟩ := x
  obtain ⟨t, q⟩ := y
  cases s <;> cases t
  · simp only [acom, map_zero]; rw [h.same]; simp
  · simp only [acom]; rw [add_comm, h.mixed]
    simp only [eq_comm (a := q)]; split <;> simp
  · simp only [acom]; rw [h.mixed]
    simp only [eq_comm (a := p)]; split <;> simp
  · simp only [acom, map_zero]; rw [h.same]; simp

theorem prod_acom {op : SQType → Ω → B} (h : IsCAR op) (pre : List (SQType × Ω)) (x y : SQType × Ω) (post : List (SQType × Ω)) :
    ((pre ++ x :: y :: post).map (fun m => op m.1 m.2)).prod + ((pre ++ y :: x :: post).map (fun m => op m.1 m.2)).prod =
      acom R x y • ((pre ++ post).map (fun m => op m.1 m.2)).prod := by
  simp only [List.map_append, List.map_cons, List.prod_append, List.prod_cons]
  rw [← mul_add, ← mul_assoc, ← mul_assoc, ← add_mul, car_acom (R := R) h, ← Algebra.smul_def, mul_smul_comm]

/-- generalised normal products are antisymmetric -/
theorem gno_antisymm {op : SQType → Ω → B} (h : IsCAR op) {ρ : Reference Ω R} (hρ : AntiCum ρ) {N : List (SQType × Ω) → B} (hN : IsGNO op ρ N) : AntisymmFun N :=
  normal_antisymm (contraction_odd ρ) hN (prod_acom h) (contraction_pair ρ) (contraction_anti hρ)

end

section
variable {M R B : Type} [DecidableEq M] [CommRing R] [AddCommGroup B] [Module R B]

/-- the set without contractions, and the others -/
theorem conSum_split (κ : List M → R) (N : List M → B) (l : List M) :
    conSum κ N l = N l + ∑ S ∈ (conSets (List.finRange l.length)).erase ∅, conTerm κ N l.get (List.finRange l.length) S := by
  unfold conSum
  rw [← Finset.add_sum_erase _ _ (show ∅ ∈ conSets (List.finRange l.length) from empty_mem_bsets _), conTerm_empty κ N _ (List.nodup_finRange _)]
  congr 2
  exact List.map_get_finRange l

theorem restOf_lt {l : List M} {S : Finset (Finset (Fin l.length))} (hS : S ∈ (conSets (List.finRange l.length)).erase ∅) :
    ((restOf (List.finRange l.length) S).map l.get).length < l.length := by
  obtain ⟨hne, hS⟩ := Finset.mem_erase.1 hS
  rw [List.length_map, restOf_eq, partOf_length (List.nodup_finRange _) (rest_subset _ _)]
  have := rest_card_lt hS hne
  rw [List.toFinset_card_of_nodup (List.nodup_finRange _), List.length_finRange] at this
  exact this

/-- the recursion that determines normal products -/
noncomputable def normalRec (κ : List M → R) (P : List M → B) (l : List M) : B :=
  P l - ∑ S ∈ (conSets (List.finRange l.length)).erase ∅,
    conTerm κ (fun l' => if _h : l'.length < l.length then normalRec κ P l' else 0) l.get (List.finRange l.length) S
termination_by l.length
decreasing_by exact _h

theorem normalRec_spec (κ : List M → R) (P : List M → B) (l : List M) : P l = conSum κ (normalRec κ P) l := by
  rw [conSum_split]
  conv_rhs => enter [1]; rw [normalRec]
  have : ∀ S ∈ (conSets (List.finRange l.length)).erase ∅,
      conTerm κ (fun l' => if _h : l'.length < l.length then normalRec κ P l' else 0) l.get (List.finRange l.length) S =
      conTerm κ (normalRec κ P) l.get (List.finRange l.length) S := by
    intro S hS
    unfold conTerm
    beta_reduce
    rw [dif_pos (restOf_lt hS)]
  rw [Finset.sum_congr rfl this, sub_add_cancel]

theorem normal_unique {κ : List M → R} {P N N' : List M → B} (h : ∀ l, P l = conSum κ N l) (h' : ∀ l, P l = conSum κ N' l) : N = N' := by
  have main : ∀ n : Nat, ∀ l : List M, l.length = n → N l = N' l := by
    intro n
    induction n using Nat.strong_induction_on with
    | _ n IH =>
      intro l hl
      have h1 := h l
      have h2 := h' l
      rw [conSum_split] at h1 h2
      have : ∀ S ∈ (conSets (List.finRange l.length)).erase ∅, conTerm κ N l.get (List.finRange l.length) S = conTerm κ N' l.get (List.finRange l.length) S := by
        intro S hS
        unfold conTerm
        rw [IH _ (by rw [← hl]; exact restOf_lt hS) _ rfl]
      rw [Finset.sum_congr rfl this] at h1
      rw [h2] at h1
      exact (add_right_cancel h1).symm
  funext l
  exact main _ l rfl
end

section
variable {Ω R B : Type} [DecidableEq Ω] [CommRing R] [Ring B] [Algebra R B]

/-- generalised normal products have no expectation value -/
theorem gno_expectation {op : SQType → Ω → B} {ρ : Reference Ω R} {N : List (SQType × Ω) → B} (hN : IsGNO op ρ N) {φ : B →ₗ[R] R} (hφ : IsReferenceState op ρ φ) :
    ∀ l, φ (N l) = if l.isEmpty then 1 else 0 := by
  have h1 : ∀ l, φ (l.map (fun m => op m.1 m.2)).prod = conSum ρ.contraction (fun l => φ (N l)) l := by
    intro l
    rw [hN l]
    unfold conSum
    rw [map_sum]
    apply Finset.sum_congr rfl
    intro S _
    unfold conTerm
    rw [map_smul]
  have := normal_unique h1 hφ
  intro l
  exact congrFun this l
end
end Gno
end Wicked
