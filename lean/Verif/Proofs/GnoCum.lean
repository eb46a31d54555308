import Verif.Proofs.GnoRef
/-! Every state has cumulants -/
namespace Wicked
namespace Gno

section
variable {α M R : Type} [DecidableEq α] [DecidableEq M] [CommRing R]

/-- nothing is left over -/
def eps (R : Type) [CommRing R] (l : List M) : R := if l.isEmpty then 1 else 0

theorem eps_ne {l : List M} (h : l ≠ []) : eps R l = 0 := by
  unfold eps
  rw [if_neg (by simpa using h)]

theorem block_eq {I : Finset α} {S : Finset (Finset α)} (hS : S ∈ bsets I) (hI : I ∈ S) : S = {I} := by
  obtain ⟨h1, h2, h3⟩ := mem_bsets.1 hS
  ext b
  rw [Finset.mem_singleton]
  constructor
  · intro hb
    by_contra hne
    obtain ⟨x, hx⟩ := h2 b hb
    exact Finset.disjoint_left.1 (h3 b hb I hI hne) hx (h1 b hb hx)
  · rintro rfl; exact hI

theorem block_lt {L : List α} (hn : L.Nodup) {S : Finset (Finset α)} (hS : S ∈ bsets L.toFinset) (hne : S ≠ {L.toFinset}) {b : Finset α} (hb : b ∈ S) :
    (partOf L b).length < L.length := by
  have hsub := (mem_bsets.1 hS).1 b hb
  rw [partOf_length hn hsub, ← List.toFinset_card_of_nodup hn]
  apply Finset.card_lt_card
  rw [Finset.ssubset_iff_subset_ne]
  exact ⟨hsub, fun e => hne (block_eq hS (e ▸ hb))⟩

theorem full_mem {L : List α} (h : L ≠ []) : {L.toFinset} ∈ bsets L.toFinset := by
  rw [mem_bsets]
  refine ⟨?_, ?_, ?_⟩
  · intro b hb; rw [Finset.mem_singleton.1 hb]
  · intro b hb; rw [Finset.mem_singleton.1 hb]
    obtain ⟨x, hx⟩ := List.exists_mem_of_ne_nil L h
    exact ⟨x, List.mem_toFinset.2 hx⟩
  · intro b hb b' hb' hne
    exact absurd ((Finset.mem_singleton.1 hb).trans (Finset.mem_singleton.1 hb').symm) hne

theorem partOf_full (L : List α) : partOf L L.toFinset = L := by
  unfold partOf
  rw [List.filter_eq_self]
  intro x hx; simp [hx]

theorem conTerm_full (κ : List M → R) (f : α → M) {L : List α} (hn : L.Nodup) : conTerm κ (eps R) f L {L.toFinset} = κ (L.map f) := by
  have hr : restOf L {L.toFinset} = [] := by
    unfold restOf
    rw [List.filter_eq_nil_iff]
    intro x hx; simp [hx]
  unfold conTerm
  rw [hr, Finset.toList_singleton, List.flatMap_singleton, partOf_full, List.append_nil, Finset.prod_singleton, partOf_full, listSign_eq, sgR_sorted ((posI_sorted hn).imp (fun h => h.le))]
  simp [eps]

/-- the recursion that determines cumulants -/
noncomputable def cumRec (P : List M → R) (l : List M) : R :=
  P l - ∑ S ∈ (conSets (List.finRange l.length)).erase {(List.finRange l.length).toFinset},
    conTerm (fun l' => if _h : l'.length < l.length then cumRec P l' else 0) (eps R) l.get (List.finRange l.length) S
termination_by l.length
decreasing_by exact _h

theorem cumRec_eq (P : List M → R) (l : List M) : cumRec P l = P l - ∑ S ∈ (conSets (List.finRange l.length)).erase {(List.finRange l.length).toFinset},
    conTerm (cumRec P) (eps R) l.get (List.finRange l.length) S := by
  rw [cumRec]
  congr 1
  apply Finset.sum_congr rfl
  intro S hS
  obtain ⟨hne, hS⟩ := Finset.mem_erase.1 hS
  unfold conTerm
  congr 2
  apply Finset.prod_congr rfl
  intro b hb
  have := block_lt (List.nodup_finRange _) hS hne hb
  rw [List.length_finRange] at this
  beta_reduce
  rw [dif_pos (by rw [List.length_map]; exact this)]

theorem cumRec_spec {P : List M → R} (hP : P [] = 1) (l : List M) : P l = conSum (cumRec P) (eps R) l := by
  cases l with
  | nil =>
    rw [conSum_split, Finset.sum_eq_zero, hP, add_zero]
    · rfl
    · intro S hS
      exact absurd (restOf_lt hS) (by simp)
  | cons m l =>
    have hne : List.finRange (m :: l).length ≠ [] := by
      intro h
      have := congrArg List.length h
      simp at this
    unfold conSum
    rw [conSets_eq, ← Finset.add_sum_erase _ _ (full_mem hne), conTerm_full _ _ (List.nodup_finRange _)]
    have hm : (List.finRange (m :: l).length).map (m :: l).get = m :: l := List.map_get_finRange _
    rw [hm, cumRec_eq, conSets_eq, sub_add_cancel]

/-- the charge of a list of operators -/
def charge (w : M → Int) (l : List M) : Int := (l.map w).sum

theorem sum_flatMap {X : Type} (l : List X) (g : X → List Int) : (l.flatMap g).sum = (l.map (fun x => (g x).sum)).sum := by
  induction l with
  | nil => rfl
  | cons x l ih => rw [List.flatMap_cons, List.sum_append, ih, List.map_cons, List.sum_cons]

/-- products that do not conserve the charge have no cumulant -/
theorem cumRec_charge {P : List M → R} {w : M → Int} (hP : ∀ l, charge w l ≠ 0 → P l = 0) : ∀ l, charge w l ≠ 0 → cumRec P l = 0 := by
  have main : ∀ n : Nat, ∀ l : List M, l.length = n → charge w l ≠ 0 → cumRec P l = 0 := by
    intro n
    induction n using Nat.strong_induction_on with
    | _ n IH =>
      intro l hl hc
      rw [cumRec_eq, hP l hc, zero_sub, neg_eq_zero]
      apply Finset.sum_eq_zero
      intro S hS
      obtain ⟨hne, hS⟩ := Finset.mem_erase.1 hS
      rw [conSets_eq] at hS
      have hn := List.nodup_finRange l.length
      unfold conTerm
      by_cases hr : restOf (List.finRange l.length) S = []
      · have hp := listing_perm hn hS
        rw [hr, List.append_nil] at hp
        have hsum : (S.toList.map (fun b => charge w ((partOf (List.finRange l.length) b).map l.get))).sum = charge w l := by
          have h1 := ((hp.map l.get).map w).sum_eq
          rw [List.map_get_finRange] at h1
          unfold charge
          rw [← h1, List.map_flatMap, List.map_flatMap, sum_flatMap]
        have : ∃ b ∈ S, charge w ((partOf (List.finRange l.length) b).map l.get) ≠ 0 := by
          by_contra h
          push Not at h
          apply hc
          rw [← hsum]
          apply List.sum_eq_zero
          intro x hx
          obtain ⟨b, hb, rfl⟩ := List.mem_map.1 hx
          exact h b (Finset.mem_toList.1 hb)
        obtain ⟨b, hb, hcb⟩ := this
        have hlt := block_lt hn hS hne hb
        rw [List.length_finRange] at hlt
        rw [Finset.prod_eq_zero hb (IH _ (by rw [← hl, List.length_map]; exact hlt) _ rfl hcb), mul_zero, zero_smul]
      · rw [eps_ne (by simpa using hr), smul_zero]
  intro l
  exact main _ l rfl

/-- pairs have no other contractions -/
theorem cumRec_pair {P : List M → R} (hodd : ∀ l, ¬ Even l.length → cumRec P l = 0) (x y : M) : cumRec P [x, y] = P [x, y] := by
  rw [cumRec_eq, Finset.sum_eq_zero, sub_zero]
  intro S hS
  obtain ⟨hne, hS⟩ := Finset.mem_erase.1 hS
  rw [conSets_eq] at hS
  have hn := List.nodup_finRange [x, y].length
  unfold conTerm
  by_cases h : S = ∅
  · subst h
    rw [eps_ne, smul_zero]
    simp [restOf]
  · obtain ⟨b, hb⟩ := Finset.nonempty_of_ne_empty h
    have hlt := block_lt hn hS hne hb
    rw [List.length_finRange] at hlt
    have hpos : 0 < (partOf (List.finRange [x, y].length) b).length := by
      rw [partOf_length hn ((mem_bsets.1 hS).1 b hb)]
      exact Finset.card_pos.2 ((mem_bsets.1 hS).2.1 b hb)
    have h1 : (partOf (List.finRange [x, y].length) b).length = 1 := by
      simp only [List.length_cons, List.length_nil] at hlt hpos ⊢
      omega
    rw [Finset.prod_eq_zero hb (hodd _ (by rw [List.length_map, h1]; decide)), mul_zero, zero_smul]

/-- cumulants of more than two operators are antisymmetric -/
theorem cumRec_anti {P : List M → R} (hP1 : P [] = 1) (hodd : ∀ l, ¬ Even l.length → cumRec P l = 0) {d : M → M → R}
    (hcar : ∀ pre x y post, P (pre ++ x :: y :: post) + P (pre ++ y :: x :: post) = d x y • P (pre ++ post)) :
    ∀ pre x y post, pre ++ post ≠ [] → cumRec P (pre ++ x :: y :: post) = - cumRec P (pre ++ y :: x :: post) := by
  have hpair : ∀ x y, cumRec P [x, y] + cumRec P [y, x] = d x y := by
    intro x y
    rw [cumRec_pair hodd, cumRec_pair hodd]
    have := hcar [] x y []
    simpa [hP1] using this
  have main : ∀ n : Nat, ∀ pre x y post, (pre ++ x :: y :: post).length = n → pre ++ post ≠ [] → cumRec P (pre ++ x :: y :: post) = - cumRec P (pre ++ y :: x :: post) := by
    intro n
    induction n using Nat.strong_induction_on with
    | _ n IH =>
      intro pre x y post hlen hne0
      obtain ⟨L, L', u, v, p, q, h, e1, e2, hp, hq, hu, hv⟩ := labels pre post x y
      have m1 : L.map Prod.fst = pre ++ x :: y :: post := by rw [e1]; simp [hp, hq, hu, hv]
      have m2 : L'.map Prod.fst = pre ++ y :: x :: post := by rw [e2]; simp [hp, hq, hu, hv]
      have hL : L ≠ [] := by rw [e1]; simp
      have h0 : {u, v} ∉ ({L.toFinset} : Finset (Finset (M × Nat))) := by
        intro hm
        have hm' := Finset.mem_singleton.1 hm
        have hr := part_rest h e1
        rw [← hm', Finset.sdiff_self] at hr
        have : p ++ q = [] := by rw [← hr]; simp [partOf]
        obtain ⟨rfl, rfl⟩ := List.append_eq_nil_iff.1 this
        exact hne0 (by rw [← hp, ← hq]; rfl)
      have hflip : ∀ S ∈ bsets L.toFinset, {u, v} ∉ S → S ≠ {L.toFinset} → conTerm (cumRec P) (eps R) Prod.fst L' S = - conTerm (cumRec P) (eps R) Prod.fst L S := by
        intro S hS huv hne
        apply term_swap h hS
        · intro b hb hub hvb
          obtain ⟨p', q', hpq, h1, h2⟩ := part_big h ((mem_bsets.1 hS).1 b hb) hub hvb (fun e => huv (e ▸ hb))
          have hlt := block_lt h.nodup hS hne hb
          rw [h1] at hlt
          rw [h1, h2, List.map_append, List.map_append, List.map_cons, List.map_cons, List.map_cons, List.map_cons]
          apply IH _ _ _ _ _ _ rfl
          · rw [← List.map_append]
            simpa using hpq
          · rw [← hlen, ← m1, List.length_map]
            simpa using hlt
        · intro hu' hv'
          have hr : Swap (restOf L S) (restOf L' S) u v := by
            rw [restOf_eq, restOf_eq, ← h.toFinset]
            exact h.part_swap (mem_rest.2 ⟨List.mem_toFinset.2 h.mem_left, hu'⟩) (mem_rest.2 ⟨List.mem_toFinset.2 h.mem_right, hv'⟩)
          obtain ⟨p', q', h1, h2⟩ := hr.ex
          rw [h1, h2, eps_ne (by simp), eps_ne (by simp), neg_zero]
      have hs := sum_swap h hodd (eps R) Prod.fst {L.toFinset} (full_mem hL) h0 hflip
      have h' := conTerm_full (cumRec P) Prod.fst h.nodup'
      rw [← h.toFinset] at h'
      rw [m1, m2, conTerm_full _ _ h.nodup, h', m1, m2, part_rest h e1, List.map_append, hp, hq, ← cumRec_spec hP1, ← cumRec_spec hP1, ← cumRec_spec hP1, hcar, hu, hv, hpair] at hs
      have : cumRec P (pre ++ x :: y :: post) + cumRec P (pre ++ y :: x :: post) = 0 := by
        have h' : (0 : R) + d x y • P (pre ++ post) = cumRec P (pre ++ x :: y :: post) + cumRec P (pre ++ y :: x :: post) + d x y • P (pre ++ post) := by rw [zero_add]; exact hs
        exact (add_right_cancel h').symm
      exact eq_neg_of_add_eq_zero_left this
  intro pre x y post
  exact main _ pre x y post rfl

end

/-! ### as a reference -/
section
variable {Ω R B : Type} [DecidableEq Ω] [CommRing R] [Ring B] [Algebra R B]

theorem anti_move {X Y : Type} [AddCommGroup Y] {F : List X → Y} (hF : AntisymmFun F) (x : X) (ys : List X) : ∀ pre post, F (pre ++ x :: (ys ++ post)) = ((-1 : Int) ^ ys.length) • F (pre ++ (ys ++ x :: post)) := by
  induction ys with
  | nil => intro pre post; simp
  | cons y ys ih =>
    intro pre post
    have h1 := hF pre x y (ys ++ post)
    have h2 := ih (pre ++ [y]) post
    rw [List.append_assoc, List.append_assoc] at h2
    simp only [List.cons_append, List.nil_append] at h2 ⊢
    rw [h1, h2, List.length_cons, pow_succ, mul_neg_one, neg_smul]

theorem anti_normal {Y : Type} [AddCommGroup Y] {F : List (SQType × Ω) → Y} (hF : AntisymmFun F) (l : List (SQType × Ω)) :
    ∀ pre, F (pre ++ l) = creFirstSign l • F (pre ++ ((creOrbs l).map (fun p => (SQType.creation, p)) ++ (annOrbs l).map (fun q => (SQType.annihilation, q)))) := by
  induction l with
  | nil => intro pre; simp [creFirstSign, creOrbs, annOrbs]
  | cons m l ih =>
    intro pre
    obtain ⟨s, p⟩ := m
    have := ih (pre ++ [(s, p)])
    rw [List.append_assoc, List.append_assoc] at this
    simp only [List.cons_append, List.nil_append] at this
    rw [this]
    cases s
    · rw [creOrbs_cre, annOrbs_cre]; rfl
    · rw [creOrbs_ann, annOrbs_ann, anti_move hF, smul_smul, List.length_map]
      simp only [creFirstSign, List.map_cons]
      rw [mul_comm]

/-- one for creation, minus one for annihilation operators -/
def opCharge : SQType × Ω → Int
  | (.creation, _) => 1
  | (.annihilation, _) => -1

theorem charge_orbs (l : List (SQType × Ω)) : charge opCharge l = ((creOrbs l).length : Int) - (annOrbs l).length := by
  induction l with
  | nil => rfl
  | cons m l ih =>
    obtain ⟨s, p⟩ := m
    have : charge opCharge ((s, p) :: l) = opCharge (s, p) + charge opCharge l := rfl
    rw [this, ih]
    cases s
    · rw [creOrbs_cre, annOrbs_cre]; simp only [opCharge, List.length_cons]; push_cast; ring
    · rw [creOrbs_ann, annOrbs_ann]; simp only [opCharge, List.length_cons]; push_cast; ring

/-- the cumulants of a state -/
noncomputable def refOf (P : List (SQType × Ω) → R) : Reference Ω R where
  gamma p q := P [(.creation, p), (.annihilation, q)]
  cumulant ps qs := if ps.length = qs.length then cumRec P (ps.map (fun p => (.creation, p)) ++ qs.map (fun q => (.annihilation, q))) else 0

theorem refOf_spec {P : List (SQType × Ω) → R} (hP1 : P [] = 1) (hch : ∀ l, (creOrbs l).length ≠ (annOrbs l).length → P l = 0)
    (hcar : ∀ pre x y post, P (pre ++ x :: y :: post) + P (pre ++ y :: x :: post) = acom R x y • P (pre ++ post)) :
    (refOf P).Antisymmetric ∧ ∀ l, P l = conSum (refOf P).contraction (fun r => if r.isEmpty then (1 : R) else 0) l := by
  have hc0 : ∀ l, (creOrbs l).length ≠ (annOrbs l).length → cumRec P l = 0 := by
    intro l h
    apply cumRec_charge (w := opCharge) (P := P)
    · intro l h; apply hch; intro h'; apply h; rw [charge_orbs, h']; exact sub_self _
    · rw [charge_orbs]; intro h'; apply h; omega
  have hodd : ∀ l : List (SQType × Ω), ¬ Even l.length → cumRec P l = 0 := by
    intro l h
    apply hc0
    intro h'
    apply h
    rw [orbs_length, h']
    exact ⟨_, rfl⟩
  have hanti := cumRec_anti hP1 hodd hcar
  refine ⟨⟨?_, ?_⟩, ?_⟩
  · intro pre a b post u
    simp only [refOf, List.length_append, List.length_cons, List.map_append, List.map_cons, List.append_assoc, List.cons_append]
    split
    · rename_i hl
      apply hanti
      intro h
      have := congrArg List.length h
      simp only [List.length_append, List.length_map, List.length_nil] at this
      omega
    · simp
  · intro l pre a b post
    simp only [refOf, List.length_append, List.length_cons, List.map_append, List.map_cons]
    split
    · rename_i hl
      rw [← List.append_assoc, ← List.append_assoc]
      apply hanti
      intro h
      have := congrArg List.length h
      simp only [List.length_append, List.length_map, List.length_nil] at this
      omega
    · simp
  · intro l
    have hfun : (refOf P).contraction = cumRec P := by
      funext l
      by_cases h2 : l.length = 2
      · obtain ⟨x, y, rfl⟩ := List.length_eq_two.1 h2
        obtain ⟨s, p⟩ := x
        obtain ⟨t, q⟩ := y
        rw [cumRec_pair hodd]
        cases s <;> cases t
        · rw [hch _ (by simp [creOrbs, annOrbs])]; rfl
        · rfl
        · have := hcar [] (.annihilation, p) (.creation, q) []
          simp only [List.nil_append, hP1, smul_eq_mul, mul_one, acom] at this
          show (if q = p then 1 else 0) - P [(.creation, q), (.annihilation, p)] = _
          rw [← this]; ring
        · rw [hch _ (by simp [creOrbs, annOrbs])]; rfl
      · rw [contraction_big _ h2]
        by_cases hl : (creOrbs l).length = (annOrbs l).length
        · by_cases h1 : 2 ≤ (creOrbs l).length
          · rw [if_pos ⟨h1, hl⟩]
            let F : List (SQType × Ω) → R := fun l => if l.length ≤ 2 then 0 else cumRec P l
            have hF : AntisymmFun F := by
              intro pre x y post
              simp only [F, List.length_append, List.length_cons]
              split
              · simp
              · apply hanti
                intro h
                have := congrArg List.length h
                simp only [List.length_append, List.length_nil] at this
                omega
            have h3 := anti_normal hF l []
            have hlen := orbs_length l
            simp only [F, List.nil_append, List.length_append, List.length_map] at h3
            rw [if_neg (by omega), if_neg (by omega)] at h3
            rw [h3, zsmul_eq_mul]
            simp only [refOf]
            rw [if_pos hl]
          · rw [if_neg (fun h => h1 h.1)]
            have hlen := orbs_length l
            have : l = [] := List.length_eq_zero_iff.1 (by omega)
            subst this
            have hs := cumRec_spec hP1 ([] : List (SQType × Ω))
            rw [cumRec_eq, hP1, Finset.sum_eq_single_of_mem ∅]
            · unfold conTerm eps
              simp [restOf, listSign]
            · rw [conSets_eq, Finset.mem_erase]
              refine ⟨?_, empty_mem_bsets _⟩
              intro h
              have := congrArg Finset.card h
              simp at this
            · intro S hS hne
              exfalso
              obtain ⟨_, hS⟩ := Finset.mem_erase.1 hS
              exact absurd (restOf_lt (l := ([] : List (SQType × Ω))) (Finset.mem_erase.2 ⟨hne, hS⟩)) (by simp)
        · rw [if_neg (fun h => hl h.2), hc0 l hl]
    rw [hfun]
    exact cumRec_spec hP1 l
end
end Gno
end Wicked
