import Verif.Proofs.AdjSum
import Verif.Proofs.GnoSum
import Verif.Proofs.GnoCum
/-! The adjoint of generalised normal products -/
namespace Wicked
namespace Gno
open Wick

section
variable {α M R B : Type} [DecidableEq α] [CommRing R] [StarRing R] [AddCommGroup B] [Module R B] [StarAddMonoid B] [StarModule R B]

theorem posI_reverse {L : List α} (hn : L.Nodup) {a : α} (ha : a ∈ L) : posI L.reverse a = (L.length : Int) - 1 - posI L a := by
  have hi := List.idxOf_lt_length_of_mem ha
  have hj : L.length - 1 - L.idxOf a < L.reverse.length := by rw [List.length_reverse]; omega
  have e : L.reverse[L.length - 1 - L.idxOf a] = a := by
    rw [List.getElem_reverse]
    have : L.length - 1 - (L.length - 1 - L.idxOf a) = L.idxOf a := by omega
    simp only [this, List.getElem_idxOf hi]
  have : L.reverse.idxOf a = L.length - 1 - L.idxOf a := by
    conv_lhs => rw [← e]
    rw [(List.nodup_reverse.2 hn).idxOf_getElem]
  unfold posI
  rw [this]
  omega

theorem partOf_reverse (L : List α) (b : Finset α) : partOf L.reverse b = (partOf L b).reverse := by
  unfold partOf; rw [List.filter_reverse]

theorem restOf_reverse (L : List α) (S : Finset (Finset α)) : restOf L.reverse S = (restOf L S).reverse := by
  unfold restOf; rw [List.filter_reverse]

theorem crossSg_rev {L : List α} (hn : L.Nodup) {l m : List α} (hl : ∀ y ∈ l, y ∈ L) (hm : ∀ y ∈ m, y ∈ L) (hd : ∀ a ∈ l, a ∉ m)
    (he : Even l.length) : crossSg (posI L.reverse) l.reverse m.reverse = crossSg (posI L) l m := by
  rw [crossSg_perm _ (List.reverse_perm l) (List.reverse_perm m)]
  have e2 : crossSg (posI L.reverse) l m = (l.map (fun a => (m.map (fun b => if posI L a < posI L b then -1 else (1 : Int))).prod)).prod := by
    unfold crossSg
    congr 1
    apply List.map_congr_left
    intro a ha
    congr 1
    apply List.map_congr_left
    intro b hb
    rw [posI_reverse hn (hl a ha), posI_reverse hn (hm b hb)]
    congr 1
    apply propext
    omega
  have e3 : (l.map (fun a => (m.map (fun b => if posI L a < posI L b then -1 else (1 : Int))).prod)).prod = crossSg (posI L) m l := by
    unfold crossSg
    clear e2 he hl hm hd
    induction l with
    | nil => simp
    | cons a l ih =>
      simp only [List.map_cons, List.prod_cons, ih, List.prod_map_mul]
  rw [e2, e3]
  exact crossSg_symm he (fun a ha b hb h => hd b hb (by rw [← posI_inj (hm a ha) h]; exact ha))

theorem sign_rev {L : List α} (hn : L.Nodup) {S : Finset (Finset α)} (hS : S ∈ bsets L.toFinset) (hev : ∀ b ∈ S, Even (partOf L b).length) :
    listSign L.reverse (S.toList.flatMap (partOf L.reverse) ++ restOf L.reverse S) = listSign L (S.toList.flatMap (partOf L) ++ restOf L S) := by
  obtain ⟨h1, _, h3⟩ := mem_bsets.1 hS
  rw [listSign_eq, listSign_eq, sgR_flat, sgR_flat]
  have hn' := List.nodup_reverse.2 hn
  have hrest : ∀ y ∈ restOf L S, y ∈ L := fun y hy => (List.mem_filter.1 hy).1
  have a1 : ∀ b, sgR (posI L.reverse) (partOf L.reverse b) = sgR (posI L) (partOf L b) := fun b => by
    rw [partOf_sorted (posI_sorted hn) b, partOf_sorted (posI_sorted hn') b]
  have a2 : sgR (posI L.reverse) (restOf L.reverse S) = sgR (posI L) (restOf L S) := by
    rw [restOf_eq, restOf_eq, partOf_sorted (posI_sorted hn), partOf_sorted (posI_sorted hn')]
  congr 1
  · congr 1
    exact List.map_congr_left (fun b _ => a1 b)
  · rw [a2]
    congr 2
    · congr 1
      apply List.map_congr_left
      intro b hb
      rw [partOf_reverse, restOf_reverse]
      refine crossSg_rev hn (fun y hy => (mem_partOf.1 hy).1) hrest ?_ (hev b (Finset.mem_toList.1 hb))
      intro a ha ha'
      have := (List.mem_filter.1 ha').2
      simp only [decide_eq_true_eq] at this
      exact this b (Finset.mem_toList.1 hb) (mem_partOf.1 ha).2
    · apply pairProd_congr
      have hp : S.toList.Pairwise (fun b b' => b ≠ b') := Finset.nodup_toList S
      refine hp.imp_of_mem ?_
      intro b b' hb hb' hne
      rw [partOf_reverse, partOf_reverse]
      refine crossSg_rev hn (fun y hy => (mem_partOf.1 hy).1) (fun y hy => (mem_partOf.1 hy).1) ?_ (hev b (Finset.mem_toList.1 hb))
      intro a ha ha'
      exact Finset.disjoint_left.1 (h3 b (Finset.mem_toList.1 hb) b' (Finset.mem_toList.1 hb') hne) (mem_partOf.1 ha).2 (mem_partOf.1 ha').2

/-- the sum over contractions of the adjoint list -/
theorem conSum_adj {κ κ' : List M → R} (hκ : ∀ l, ¬ Even l.length → κ l = 0) {g : M → M} (hκ' : ∀ l, ¬ Even l.length → κ' l = 0)
    (hstar : ∀ l, star (κ l) = κ' (l.map g).reverse)
    (N N' : List M → B) (hN : ∀ l, N' (l.map g).reverse = star (N l)) (l : List M) :
    conSum κ' N' (l.map g).reverse = star (conSum κ N l) := by
  have hn := List.nodup_finRange l.length
  have e1 : (l.map g).reverse = (List.finRange l.length).reverse.map (fun i => g (l.get i)) := by
    rw [List.map_reverse]
    congr 1
    apply List.ext_getElem
    · simp
    · intro i h1 h2; simp
  rw [e1, conSum_eq κ' hκ' N' _ (List.nodup_reverse.2 hn), List.toFinset_reverse]
  unfold conSum
  rw [conSets_eq, star_sum]
  generalize List.finRange l.length = L at *
  apply Finset.sum_congr rfl
  intro S hS
  unfold conTerm
  rw [star_smul, star_mul', star_intCast, star_prod]
  by_cases hev : ∀ b ∈ S, Even (partOf L b).length
  · rw [sign_rev hn hS hev, restOf_reverse]
    congr 1
    · congr 1
      apply Finset.prod_congr rfl
      intro b _
      rw [partOf_reverse, hstar, List.map_map, List.map_reverse]
      rfl
    · rw [List.map_reverse, ← hN, List.map_map]
      rfl
  · push Not at hev
    obtain ⟨b, hb, hodd⟩ := hev
    have z1 : ∏ b ∈ S, κ' ((partOf L.reverse b).map (fun i => g (l.get i))) = 0 :=
      Finset.prod_eq_zero hb (hκ' _ (by rwa [List.length_map, partOf_reverse, List.length_reverse]))
    have z2 : ∏ b ∈ S, star (κ ((partOf L b).map l.get)) = 0 :=
      Finset.prod_eq_zero hb (by rw [hκ _ (by rwa [List.length_map]), star_zero])
    rw [z1, z2]
    simp
theorem conSum_star {κ : List M → R} (hκ : ∀ l, ¬ Even l.length → κ l = 0) {g : M → M} (hstar : ∀ l, star (κ l) = κ (l.map g).reverse)
    (N N' : List M → B) (hN : ∀ l, N' (l.map g).reverse = star (N l)) (l : List M) :
    conSum κ N' (l.map g).reverse = star (conSum κ N l) := conSum_adj hκ hκ hstar N N' hN l
end

section
variable {Ω R B : Type} [DecidableEq Ω] [CommRing R] [StarRing R]

theorem flip_flip (m : SQType × Ω) : flipMode (flipMode m) = m := by
  rcases m with ⟨s, x⟩; cases s <;> rfl

theorem creOrbs_adj (l : List (SQType × Ω)) : creOrbs (l.map flipMode).reverse = (annOrbs l).reverse := by
  unfold creOrbs annOrbs
  rw [List.filterMap_reverse, List.filterMap_map]
  congr 2
  funext m
  rcases m with ⟨s, x⟩; cases s <;> rfl

theorem annOrbs_adj (l : List (SQType × Ω)) : annOrbs (l.map flipMode).reverse = (creOrbs l).reverse := by
  unfold creOrbs annOrbs
  rw [List.filterMap_reverse, List.filterMap_map]
  congr 2
  funext m
  rcases m with ⟨s, x⟩; cases s <;> rfl

theorem creFirstSign_pair (l : List (SQType × Ω)) :
    creFirstSign l = pairProd (fun a b => if a.1 = .annihilation ∧ b.1 = .creation then (-1 : Int) else 1) l := by
  induction l with
  | nil => rfl
  | cons m l ih =>
    rcases m with ⟨s, x⟩
    cases s with
    | creation => rw [creFirstSign, ih, pairProd]; simp
    | annihilation =>
      rw [creFirstSign, ih, pairProd]
      congr 1
      clear ih
      induction l with
      | nil => rfl
      | cons n l ih =>
        rcases n with ⟨t, y⟩
        cases t with
        | creation =>
          rw [show creOrbs ((.creation, y) :: l) = y :: creOrbs l from rfl, List.length_cons, pow_succ, ih, List.map_cons, List.prod_cons, mul_comm]
          simp
        | annihilation =>
          rw [show creOrbs ((.annihilation, y) :: l) = creOrbs l from rfl, ih, List.map_cons, List.prod_cons]
          simp

theorem creFirstSign_adj (l : List (SQType × Ω)) : creFirstSign (l.map flipMode).reverse = creFirstSign l := by
  rw [creFirstSign_pair, creFirstSign_pair, pairProd_reverse, pairProd_map]
  congr 1
  funext a b
  rcases a with ⟨s, x⟩
  rcases b with ⟨t, y⟩
  cases s <;> cases t <;> simp [flipMode]

theorem contraction_adj {ρ : Reference Ω R} (hρ : ρ.Hermitian) (l : List (SQType × Ω)) : star (ρ.contraction l) = ρ.contraction (l.map flipMode).reverse := by
  by_cases h2 : l.length = 2
  · obtain ⟨a, b, rfl⟩ := List.length_eq_two.1 h2
    rcases a with ⟨s, x⟩
    rcases b with ⟨t, y⟩
    cases s <;> cases t <;> simp [flipMode, Reference.contraction, hρ.1, creOrbs, annOrbs]
    by_cases h : x = y
    · subst h; simp
    · rw [if_neg h, if_neg (fun e => h e.symm), star_zero]
  · rw [contraction_big ρ h2, contraction_big ρ (by simpa using h2), creOrbs_adj, annOrbs_adj, creFirstSign_adj, List.length_reverse, List.length_reverse]
    by_cases h : 2 ≤ (creOrbs l).length ∧ (creOrbs l).length = (annOrbs l).length
    · rw [if_pos h, if_pos ⟨by omega, h.2.symm⟩, star_mul', star_intCast, hρ.2 _ _ h.2 h.1]
    · rw [if_neg h, if_neg (fun h' => h ⟨by omega, h'.2.symm⟩), star_zero]

variable [Ring B] [Algebra R B] [StarRing B] [StarModule R B]

/-- the adjoint of a generalised normal product -/
theorem gno_adj {op : SQType → Ω → B} (hs : ∀ m : SQType × Ω, star (op m.1 m.2) = op (flipMode m).1 (flipMode m).2) {ρ : Reference Ω R} (hρ : ρ.Hermitian)
    {N : List (SQType × Ω) → B} (hN : IsGNO op ρ N) (l : List (SQType × Ω)) : star (N l) = N (l.map flipMode).reverse := by
  have hinv : ∀ l : List (SQType × Ω), (((l.map flipMode).reverse).map flipMode).reverse = l := by
    intro l
    rw [← List.map_reverse, List.reverse_reverse, List.map_map]
    conv_rhs => rw [← List.map_id l]
    exact List.map_congr_left (fun m _ => flip_flip m)
  have hprod : ∀ l : List (SQType × Ω), star (l.map (fun m => op m.1 m.2)).prod = ((l.map flipMode).reverse.map (fun m => op m.1 m.2)).prod := by
    intro l
    induction l with
    | nil => simp
    | cons m l ih =>
      rw [List.map_cons, List.prod_cons, star_mul, ih, List.map_cons, List.reverse_cons, List.map_append, List.prod_append, hs]
      simp
  have hN' : IsGNO op ρ (fun l => star (N (l.map flipMode).reverse)) := by
    intro l
    have := conSum_star (contraction_odd ρ) (contraction_adj hρ) N (fun l => star (N (l.map flipMode).reverse)) (fun l => by rw [hinv]) (l.map flipMode).reverse
    rw [hinv] at this
    rw [this, ← hN, hprod, hinv]
  have he := normal_unique (κ := ρ.contraction) (P := fun l => (l.map (fun m : SQType × Ω => op m.1 m.2)).prod) hN hN'
  have := congrFun he l
  rw [this, star_star]

end

section
variable {M R : Type} [DecidableEq M] [CommRing R]

/-- the expectation values determine the cumulants -/
theorem cum_unique {κ κ' : List M → R} {P : List M → R} (h : ∀ l, P l = conSum κ (eps R) l) (h' : ∀ l, P l = conSum κ' (eps R) l) : ∀ l, l ≠ [] → κ l = κ' l := by
  have main : ∀ n : Nat, ∀ l : List M, l.length = n → l ≠ [] → κ l = κ' l := by
    intro n
    induction n using Nat.strong_induction_on with
    | _ n IH =>
      intro l hl hne
      have hn := List.nodup_finRange l.length
      have hL : List.finRange l.length ≠ [] := by
        intro e
        apply hne
        have := congrArg List.length e
        simpa using this
      have hm : (List.finRange l.length).map l.get = l := List.map_get_finRange l
      have h1 := h l
      have h2 := h' l
      unfold conSum at h1 h2
      rw [conSets_eq, ← Finset.add_sum_erase _ _ (full_mem hL), conTerm_full κ _ hn, hm] at h1
      rw [conSets_eq, ← Finset.add_sum_erase _ _ (full_mem hL), conTerm_full κ' _ hn, hm] at h2
      have : ∀ S ∈ (bsets (List.finRange l.length).toFinset).erase {(List.finRange l.length).toFinset},
          conTerm κ (eps R) l.get (List.finRange l.length) S = conTerm κ' (eps R) l.get (List.finRange l.length) S := by
        intro S hS
        obtain ⟨hne, hS⟩ := Finset.mem_erase.1 hS
        unfold conTerm
        congr 2
        apply Finset.prod_congr rfl
        intro b hb
        refine IH _ ?_ _ rfl ?_
        · rw [List.length_map]
          have := block_lt hn hS hne hb
          rw [List.length_finRange] at this
          exact hl ▸ this
        · obtain ⟨x, hx⟩ := (mem_bsets.1 hS).2.1 b hb
          intro e
          rw [List.map_eq_nil_iff] at e
          have : x ∈ partOf (List.finRange l.length) b := mem_partOf.2 ⟨List.mem_finRange x, hx⟩
          rw [e] at this
          cases this
      rw [Finset.sum_congr rfl this, h2] at h1
      exact (add_right_cancel h1).symm
  intro l
  exact main _ l rfl
end

theorem contraction_word {Ω R : Type} [DecidableEq Ω] [CommRing R] (ρ : Reference Ω R) {ps qs : List Ω} (hl : ps.length = qs.length) (h2 : 2 ≤ ps.length) :
    ρ.contraction (ps.map (fun p => (SQType.creation, p)) ++ qs.map (fun q => (SQType.annihilation, q))) = ρ.cumulant ps qs := by
  have c1 : ∀ ps : List Ω, creOrbs (ps.map (fun p => (SQType.creation, p))) = ps ∧ annOrbs (ps.map (fun p => (SQType.creation, p))) = [] := by
    intro ps
    induction ps with
    | nil => exact ⟨rfl, rfl⟩
    | cons p ps ih => rw [List.map_cons, creOrbs_cre, annOrbs_cre, ih.1, ih.2]; exact ⟨rfl, rfl⟩
  have c2 : ∀ ps : List Ω, creOrbs (ps.map (fun p => (SQType.annihilation, p))) = [] ∧ annOrbs (ps.map (fun p => (SQType.annihilation, p))) = ps := by
    intro ps
    induction ps with
    | nil => exact ⟨rfl, rfl⟩
    | cons p ps ih => rw [List.map_cons, creOrbs_ann, annOrbs_ann, ih.1, ih.2]; exact ⟨rfl, rfl⟩
  have e1 : creOrbs (ps.map (fun p => (SQType.creation, p)) ++ qs.map (fun q => (SQType.annihilation, q))) = ps := by
    rw [creOrbs_append, (c1 ps).1, (c2 qs).1, List.append_nil]
  have e2 : annOrbs (ps.map (fun p => (SQType.creation, p)) ++ qs.map (fun q => (SQType.annihilation, q))) = qs := by
    rw [annOrbs_append, (c1 ps).2, (c2 qs).2, List.nil_append]
  have e3 : creFirstSign (ps.map (fun p => (SQType.creation, p)) ++ qs.map (fun q => (SQType.annihilation, q))) = 1 := by
    have : ∀ qs : List Ω, creFirstSign (qs.map (fun q => (SQType.annihilation, q))) = 1 := by
      intro qs
      induction qs with
      | nil => rfl
      | cons q qs ih => rw [List.map_cons, creFirstSign, ih, (c2 qs).1]; rfl
    clear e1 e2 hl h2
    induction ps with
    | nil => exact this qs
    | cons p ps ih => exact ih
  rw [contraction_big ρ (by simp only [List.length_append, List.length_map]; omega), e1, e2, e3, if_pos ⟨h2, hl⟩]
  simp

section
variable {Ω R B : Type} [DecidableEq Ω] [CommRing R] [StarRing R] [Ring B] [Algebra R B] [StarRing B] [StarModule R B]

/-- the reference of a state with real expectation values of Hermitian operators is Hermitian -/
theorem reference_hermitian {op : SQType → Ω → B} (hs : ∀ m : SQType × Ω, star (op m.1 m.2) = op (flipMode m).1 (flipMode m).2) {ρ : Reference Ω R}
    {φ : B →ₗ[R] R} (hφ : IsReferenceState op ρ φ) (hreal : ∀ b, φ (star b) = star (φ b)) : ρ.Hermitian := by
  have hinv : ∀ l : List (SQType × Ω), (((l.map flipMode).reverse).map flipMode).reverse = l := by
    intro l
    rw [← List.map_reverse, List.reverse_reverse, List.map_map]
    conv_rhs => rw [← List.map_id l]
    exact List.map_congr_left (fun m _ => flip_flip m)
  have hprod : ∀ l : List (SQType × Ω), star (l.map (fun m => op m.1 m.2)).prod = ((l.map flipMode).reverse.map (fun m => op m.1 m.2)).prod := by
    intro l
    induction l with
    | nil => simp
    | cons m l ih =>
      rw [List.map_cons, List.prod_cons, star_mul, ih, List.map_cons, List.reverse_cons, List.map_append, List.prod_append, hs]
      simp
  have key := cum_unique (κ := ρ.contraction) (κ' := fun l => star (ρ.contraction (l.map flipMode).reverse))
    (P := fun l => φ (l.map (fun m : SQType × Ω => op m.1 m.2)).prod) (fun l => hφ l) (by
      intro l
      beta_reduce
      have h1 := hφ (l.map flipMode).reverse
      rw [← hprod, hreal] at h1
      have h2 := congrArg star h1
      rw [star_star] at h2
      rw [h2]
      have h3 := conSum_adj (κ := ρ.contraction) (contraction_odd ρ) (g := flipMode (Ω := Ω)) (κ' := fun l => star (ρ.contraction (l.map flipMode).reverse))
        (fun l h => by rw [contraction_odd ρ _ (by simpa using h), star_zero]) (fun l => by rw [hinv]) (eps R) (eps R)
        (fun l => by unfold eps; cases l <;> simp) (l.map flipMode).reverse
      rw [hinv] at h3
      rw [h3]
      rfl)
  refine ⟨fun p q => ?_, fun ps qs hl h2 => ?_⟩
  · have := key [(.creation, q), (.annihilation, p)] (by simp)
    exact this.symm
  · have hk := key (qs.reverse.map (fun q => (.creation, q)) ++ ps.reverse.map (fun p => (.annihilation, p))) (by
      intro e
      have := congrArg List.length e
      simp at this
      simp [this] at h2)
    have e : ((qs.reverse.map (fun q => (SQType.creation, q)) ++ ps.reverse.map (fun p => (SQType.annihilation, p))).map flipMode).reverse =
        ps.map (fun p => (SQType.creation, p)) ++ qs.map (fun q => (SQType.annihilation, q)) := by
      simp only [List.map_append, List.map_map, List.reverse_append, ← List.map_reverse, List.reverse_reverse]
      rfl
    rw [e, contraction_word ρ hl h2, contraction_word ρ (by simpa using hl.symm) (by simpa [← hl] using h2)] at hk
    exact hk.symm
end
end Gno
end Wicked
