import Verif.Proofs.Count
import Verif.Proofs.WickGraphVal
/-! The combinatorial factor of a contraction -/
namespace Wicked
open CppLt CppEq Rational
namespace Wick
open scoped Classical

/-- the kinds of operators -/
def kinds (ns n : Nat) : Finset (Nat × Nat × Bool) := Finset.range n ×ˢ (Finset.range ns ×ˢ Finset.univ)

theorem prod_kinds {M : Type} [CommMonoid M] (ns n : Nat) (f : Nat × Nat × Bool → M) :
    ∏ k ∈ kinds ns n, f k = ∏ v ∈ Finset.range n, ∏ s ∈ Finset.range ns, f (v, s, true) * f (v, s, false) := by
  unfold kinds
  rw [Finset.prod_product]
  apply Finset.prod_congr rfl
  intro v _
  rw [Finset.prod_product]
  apply Finset.prod_congr rfl
  intro s _
  rw [Fintype.prod_bool]

theorem spaceFold (ns : Nat) (g h : GraphMatrix) (hg : ∀ t, 0 ≤ g.cre t ∧ 0 ≤ g.ann t) (hh : ∀ t, 0 ≤ h.cre t ∧ 0 ≤ h.ann t) (f : Rational) :
    toRat ((List.range ns).foldl (fun f s =>
      Rational.mul (Rational.mul f (Rational.ofInt (binomial (h.cre s) (g.cre s))))
        (Rational.ofInt (binomial (h.ann s) (g.ann s)))) f) =
    toRat f * ∏ s ∈ Finset.range ns, ((((h.cre s).toNat.choose (g.cre s).toNat : Nat) : ℚ) * (((h.ann s).toNat.choose (g.ann s).toNat : Nat) : ℚ)) := by
  induction ns with
  | zero => simp
  | succ n ih =>
    rw [List.range_succ, List.foldl_append, Finset.prod_range_succ, List.foldl_cons, List.foldl_nil, toRat_mul, toRat_mul, ih, toRat_ofInt, toRat_ofInt]
    have e1 := binomial_nat (h.cre n).toNat (g.cre n).toNat
    have e2 := binomial_nat (h.ann n).toNat (g.ann n).toNat
    rw [Int.toNat_of_nonneg (hh n).1, Int.toNat_of_nonneg (hg n).1] at e1
    rw [Int.toNat_of_nonneg (hh n).2, Int.toNat_of_nonneg (hg n).2] at e2
    rw [e1, e2]
    simp only [Int.cast_natCast]
    ring

/-- one step of `combBinomials` -/
def combStep (ns : Nat) (st : Rational × List GraphMatrix) (e : EContr) : Rational × List GraphMatrix :=
  (List.range e.length).foldl (fun st v =>
    let g := gmAt e v
    let h := gmAt st.2 v
    let f := (List.range ns).foldl (fun f s =>
      Rational.mul (Rational.mul f (Rational.ofInt (binomial (h.cre s) (g.cre s))))
        (Rational.ofInt (binomial (h.ann s) (g.ann s)))) st.1
    (f, st.2.set v (h.sub ns g))) st

theorem combStep_spec {ns n : Nat} {free : List GraphMatrix} {e : EContr} (hf : Good ns n free) (he : Good ns n e) (f : Rational) :
    toRat (combStep ns (f, free) e).1 = toRat f * ∏ k ∈ kinds ns n, (((elegs free k).choose (elegs e k) : Nat) : ℚ) ∧
      (combStep ns (f, free) e).2 = takeLegs ns free e := by
  have key : ∀ m ≤ n, ∀ r, r = (List.range m).foldl (fun (st : Rational × List GraphMatrix) v =>
      let g := gmAt e v
      let h := gmAt st.2 v
      let f := (List.range ns).foldl (fun f s =>
        Rational.mul (Rational.mul f (Rational.ofInt (binomial (h.cre s) (g.cre s))))
          (Rational.ofInt (binomial (h.ann s) (g.ann s)))) st.1
      (f, st.2.set v (h.sub ns g))) (f, free) →
      toRat r.1 = toRat f * ∏ v ∈ Finset.range m, ∏ s ∈ Finset.range ns,
        ((((gmAt free v).cre s).toNat.choose ((gmAt e v).cre s).toNat : Nat) : ℚ) * ((((gmAt free v).ann s).toNat.choose ((gmAt e v).ann s).toNat : Nat) : ℚ) ∧
      r.2 = (List.range n).map (fun A => if A < m then (gmAt free A).sub ns (gmAt e A) else gmAt free A) := by
    intro m
    induction m with
    | zero =>
      rintro _ r rfl
      refine ⟨by simp, ?_⟩
      conv_lhs => rw [List.range_zero, List.foldl_nil, list_eq_map_gmAt free, hf.1]
      simp
    | succ m ih =>
      rintro hm r rfl
      obtain ⟨h1, h2⟩ := ih (by omega) _ rfl
      rw [List.range_succ, List.foldl_append, List.foldl_cons, List.foldl_nil]
      generalize (List.range m).foldl _ (f, free) = st at *
      have h3 : gmAt st.2 m = gmAt free m := by
        rw [h2, gmAt_map_range _ _ _ (by omega)]; simp
      simp only [h3]
      constructor
      · rw [spaceFold _ _ _ (fun t => ⟨(he.2 m (by omega) t).1, (he.2 m (by omega) t).2.1⟩) (fun t => ⟨(hf.2 m (by omega) t).1, (hf.2 m (by omega) t).2.1⟩), h1, Finset.prod_range_succ, mul_assoc]
      · rw [h2]
        apply List.ext_getElem (by simp)
        intro i a b
        simp only [List.length_map, List.length_range] at b
        rw [List.getElem_set]
        by_cases hi : m = i
        · subst hi; simp
        · rw [if_neg hi, List.getElem_map, List.getElem_map, List.getElem_range]
          by_cases hi2 : i < m
          · rw [if_pos hi2, if_pos (by omega)]
          · rw [if_neg hi2, if_neg (by omega)]
  have h := key n (le_refl n) (combStep ns (f, free) e) (by unfold combStep; rw [he.1])
  refine ⟨?_, ?_⟩
  · rw [h.1, prod_kinds]; rfl
  · rw [h.2]
    unfold takeLegs
    rw [hf.1]
    apply List.map_congr_left
    intro A hA
    rw [if_pos (List.mem_range.1 hA)]

theorem elegs_takeLegs {ns n : Nat} {free : List GraphMatrix} {e : EContr} (hf : Good ns n free) (he : Good ns n e) {k : Nat × Nat × Bool} (hk : k ∈ kinds ns n) :
    elegs (takeLegs ns free e) k = elegs free k - elegs e k := by
  unfold kinds at hk
  simp only [Finset.mem_product, Finset.mem_range, Finset.mem_univ, and_true] at hk
  unfold elegs takeLegs
  rw [hf.1, gmAt_map_range _ _ _ hk.1, GraphMatrix.cre_sub, GraphMatrix.ann_sub, if_pos hk.2, if_pos hk.2]
  have a1 := hf.2 k.1 hk.1 k.2.1
  have a2 := he.2 k.1 hk.1 k.2.1
  split <;> omega

theorem fits_of_legs {ns n : Nat} {free : List GraphMatrix} {e : EContr} (hf : Good ns n free) (he : Good ns n e)
    (h : ∀ k ∈ kinds ns n, elegs e k ≤ elegs free k) : fits ns free e = true := by
  rw [fits_iff hf.1]
  intro A hA s hs
  have a1 := hf.2 A hA s
  have a2 := he.2 A hA s
  have h1 := h (A, s, true) (by simp [kinds, hA, hs])
  have h2 := h (A, s, false) (by simp [kinds, hA, hs])
  unfold elegs at h1 h2
  simp only [if_true] at h1
  simp only [Bool.false_eq_true, if_false] at h2
  omega

theorem multinom_cons' {κ : Type} (K : Finset κ) (n : κ → ℕ) (f : κ → ℕ) (M : Multiset (κ → ℕ)) (h : ∀ k ∈ K, ((f ::ₘ M).map (fun g => g k)).sum ≤ n k) :
    Count.multinom K n (f ::ₘ M) = (∏ k ∈ K, (((n k).choose (f k) : ℕ) : ℚ)) * Count.multinom K (fun k => n k - f k) M := by
  unfold Count.multinom
  rw [← Finset.prod_mul_distrib]
  apply Finset.prod_congr rfl
  intro k hk
  have h1 := h k hk
  rw [Multiset.map_cons, Multiset.sum_cons] at h1
  simp only [Multiset.map_cons, Multiset.sum_cons, Multiset.prod_cons]
  generalize (M.map (fun g => g k)).sum = t at *
  have hz : (M.map (fun g => ((g k).factorial : ℚ))).prod ≠ 0 := by
    refine Multiset.prod_ne_zero ?_
    rw [Multiset.mem_map]
    rintro ⟨g, _, hg⟩
    exact (Nat.cast_ne_zero.2 (Nat.factorial_ne_zero _)) hg
  generalize (M.map (fun g => ((g k).factorial : ℚ))).prod = P at *
  have hc := Nat.choose_mul_factorial_mul_factorial (show f k ≤ n k by omega)
  have hc' : (((n k).choose (f k) : ℕ) : ℚ) * (f k).factorial * (n k - f k).factorial = (n k).factorial := by exact_mod_cast hc
  have e : n k - f k - t = n k - (f k + t) := by omega
  rw [e]
  have a1 : ((f k).factorial : ℚ) ≠ 0 := Nat.cast_ne_zero.2 (Nat.factorial_ne_zero _)
  have a2 : ((n k - (f k + t)).factorial : ℚ) ≠ 0 := Nat.cast_ne_zero.2 (Nat.factorial_ne_zero _)
  rw [mul_div_assoc', div_eq_div_iff (mul_ne_zero (mul_ne_zero a1 hz) a2) (mul_ne_zero hz a2), ← hc']
  ring

theorem multinom_congr {κ : Type} {K : Finset κ} {n n' : κ → ℕ} (h : ∀ k ∈ K, n k = n' k) (M : Multiset (κ → ℕ)) :
    Count.multinom K n M = Count.multinom K n' M := by
  unfold Count.multinom
  apply Finset.prod_congr rfl
  intro k hk
  rw [h k hk]

/-- the product of the binomials is a multinomial coefficient -/
theorem combBinomials_eq {ns n : Nat} : ∀ (cs : CContr) (free : List GraphMatrix) (f : Rational), Good ns n free → (∀ e ∈ cs, Good ns n e) →
    (∀ k ∈ kinds ns n, ((cs.map (fun e => elegs e k)).sum ≤ elegs free k)) →
    toRat (cs.foldl (combStep ns) (f, free)).1 = toRat f * Count.multinom (kinds ns n) (elegs free) (cs.map elegs : List _) := by
  intro cs
  induction cs with
  | nil =>
    intro free f _ _ _
    rw [List.foldl_nil, List.map_nil, Count.multinom]
    simp only [Multiset.coe_nil, Multiset.map_zero, Multiset.prod_zero, Multiset.sum_zero]
    rw [Finset.prod_eq_one, mul_one]
    intro k _
    rw [Nat.sub_zero, one_mul, div_self]
    exact Nat.cast_ne_zero.2 (Nat.factorial_ne_zero _)
  | cons e cs ih =>
    intro free f hf hg hk
    have he := hg e (by simp)
    have hs := combStep_spec hf he f
    have hfit := fits_of_legs hf he (fun k hk' => by have := hk k hk'; rw [List.map_cons, List.sum_cons] at this; omega)
    have hst : combStep ns (f, free) e = ((combStep ns (f, free) e).1, takeLegs ns free e) := by rw [← hs.2]
    rw [List.foldl_cons, hst, ih _ _ (good_takeLegs hf he hfit) (fun e' he' => hg e' (by simp [he'])) (by
      intro k hk'
      have := hk k hk'
      rw [List.map_cons, List.sum_cons] at this
      rw [elegs_takeLegs hf he hk']; omega)]
    rw [hs.1, List.map_cons, ← Multiset.cons_coe, multinom_cons', mul_assoc]
    · congr 2
      apply multinom_congr
      intro k hk'
      rw [elegs_takeLegs hf he hk']
    · intro k hk'
      have := hk k hk'
      rw [Multiset.cons_coe, Multiset.map_coe, Multiset.sum_coe, List.map_cons, List.map_map, List.sum_cons]
      rw [List.map_cons, List.sum_cons] at this
      exact this

/-! ### multiplicities -/

theorem contrCount_find (cs : CContr) : SMap.Srt (contrCount cs) ∧ ∀ e, SMap.find e (contrCount cs) = if e ∈ cs then some (cs.count e : Int) else none := by
  unfold contrCount
  induction cs using List.reverseRecOn with
  | nil => exact ⟨List.Pairwise.nil, fun e => by simp [SMap.find]⟩
  | append_singleton cs e ih =>
    rw [List.foldl_append, List.foldl_cons, List.foldl_nil]
    generalize List.foldl _ ([] : SMap EContr Int) cs = m at *
    refine ⟨SMap.srt_insert ih.1, fun e' => ?_⟩
    rw [SMap.find_insert ih.1, ih.2, ih.2]
    have hE : eqv e e' = true ↔ e = e' := eqv_eq
    by_cases h : e = e'
    · rw [if_pos (hE.2 h), h, if_pos (show e' ∈ cs ++ [e'] from List.mem_append_right _ (List.mem_singleton.2 rfl)), List.count_append, List.count_singleton_self]
      by_cases h2 : e' ∈ cs
      · rw [if_pos h2]; simp
      · rw [if_neg h2, List.count_eq_zero_of_not_mem h2]; simp
    · rw [if_neg (fun hh => h (hE.1 hh)), List.count_append, List.count_singleton]
      have : (e == e') = false := by simpa using h
      simp [this, Ne.symm h]

theorem contrCount_prod (cs : CContr) : ((contrCount cs).map (fun kv => (kv.2 : ℚ))).prod = ∏ e ∈ cs.toFinset, (cs.count e : ℚ) := by
  obtain ⟨hs, hfd⟩ := contrCount_find cs
  have hp : (contrCount cs).Perm (cs.dedup.map (fun e => (e, (cs.count e : Int)))) := by
    rw [List.perm_ext_iff_of_nodup]
    · rintro ⟨e, m⟩
      rw [List.mem_map]
      constructor
      · intro h
        have := SMap.find_of_mem hs h
        rw [hfd] at this
        by_cases h2 : e ∈ cs
        · simp only [h2, if_true, Option.some.injEq] at this
          exact ⟨e, List.mem_dedup.2 h2, by rw [this]⟩
        · simp [h2] at this
      · rintro ⟨e', h', he⟩
        have h2 := hfd e'
        rw [if_pos (List.mem_dedup.1 h')] at h2
        obtain ⟨p, hp, h3, h4⟩ := SMap.find_some_mem h2
        have h5 : p.1 = e' := eqv_eq.1 h3
        rw [← he, ← h4, ← h5]; exact hp
    · refine hs.imp ?_
      rintro a b h rfl
      rw [StrictWeak.irrefl] at h; cases h
    · exact (List.nodup_dedup cs).map (fun a b h => by simpa using congrArg Prod.fst h)
  rw [(hp.map _).prod_eq, List.map_map]
  have e : cs.toFinset = cs.dedup.toFinset := by ext x; simp
  rw [e, List.prod_toFinset _ (List.nodup_dedup cs)]
  congr 1

theorem combFactor_eq {ns : Nat} {ops : OperatorProduct} (hv : ∀ p ∈ ops, p.Valid ns) {cs : CContr} (hg : ∀ e ∈ cs, Good ns ops.length e)
    (hk : ∀ k ∈ kinds ns ops.length, ((cs.map (fun e => elegs e k)).sum ≤ elegs (ops.map Operator.gm) k)) :
    toRat (combFactor ns ops cs) * ∏ e ∈ cs.toFinset, (cs.count e : ℚ) = Count.multinom (kinds ns ops.length) (elegs (ops.map Operator.gm)) (cs.map elegs : List _) := by
  unfold combFactor
  have key : ∀ (l : SMap EContr Int) (r : Rational), (∀ p ∈ l, 1 ≤ p.2) →
      toRat (l.foldl (fun f kv => Rational.div f (Rational.ofInt (binomial kv.2 1))) r) * (l.map (fun kv => (kv.2 : ℚ))).prod = toRat r := by
    intro l
    induction l with
    | nil => intro r _; simp
    | cons p l ih =>
      intro r hp
      have h1 := hp p (by simp)
      rw [List.foldl_cons, List.map_cons, List.prod_cons, mul_left_comm, ih _ (fun q hq => hp q (by simp [hq])), toRat_div, toRat_ofInt, binomial_one h1]
      have : (p.2 : ℚ) ≠ 0 := by
        intro h; have : p.2 = 0 := by exact_mod_cast h
        omega
      field_simp
  rw [← contrCount_prod, key _ _ (contrCount_pos cs)]
  have := combBinomials_eq cs (ops.map Operator.gm) (Rational.ofInt 1) (good_ops hv) hg hk
  rw [toRat_ofInt, Int.cast_one, one_mul] at this
  exact this

/-! ### counting realisations -/

theorem legCount_eq (b : Finset Slot) : legCount b = Count.lc Slot.cls b := by
  funext k; unfold legCount Count.lc; congr 1; ext x; simp only [Finset.mem_filter]; exact Iff.rfl

theorem realisations_eq (ns : Nat) (ops : OperatorProduct) (cs : CContr) :
    realisations ns ops cs = Count.reals Slot.cls (slots ns ops).toFinset (cs.map elegs : List _) := by
  unfold realisations Count.reals
  rw [show legCount = Count.lc Slot.cls from funext legCount_eq]
  ext S
  simp only [Finset.mem_filter]

theorem lc_slots {ns : Nat} {ops : OperatorProduct} (k : Nat × Nat × Bool) (hk : k ∈ kinds ns ops.length) :
    Count.lc Slot.cls (slots ns ops).toFinset k = elegs (ops.map Operator.gm) k := by
  unfold kinds at hk
  simp only [Finset.mem_product, Finset.mem_range, Finset.mem_univ, and_true] at hk
  unfold Count.lc elegs
  rw [gmAt_ops ops k.1 hk.1]
  have : (slots ns ops).toFinset.filter (fun x => x.cls = k) =
      (Finset.range (if k.2.2 = true then (opAt ops k.1).gm.cre k.2.1 else (opAt ops k.1).gm.ann k.2.1).toNat).image (fun i => (⟨k.1, k.2.1, k.2.2, i⟩ : Slot)) := by
    ext x
    simp only [Finset.mem_filter, List.mem_toFinset, Finset.mem_image, Finset.mem_range]
    rw [mem_slots]
    constructor
    · rintro ⟨⟨h1, h2, h3⟩, rfl⟩
      refine ⟨x.k, ?_, rfl⟩
      show x.k < Int.toNat (if x.cre = true then (opAt ops x.op).gm.cre x.space else (opAt ops x.op).gm.ann x.space)
      cases hc : x.cre <;> simp [hc] at h3 ⊢ <;> exact h3
    · rintro ⟨i, hi, rfl⟩
      refine ⟨⟨hk.1, hk.2, ?_⟩, rfl⟩
      cases hc : k.2.2 <;> simp [hc] at hi ⊢ <;> exact hi
  rw [show ∀ h, @Finset.filter _ (fun x => x.cls = k) h (slots ns ops).toFinset = (slots ns ops).toFinset.filter (fun x => x.cls = k) from fun h => by ext; simp] at this ⊢
  rw [this, Finset.card_image_of_injective, Finset.card_range]
  intro i j h
  simpa using h

theorem cls_mem_kinds {ns : Nat} {ops : OperatorProduct} {x : Slot} (h : x ∈ (slots ns ops).toFinset) : x.cls ∈ kinds ns ops.length := by
  rw [List.mem_toFinset, mem_slots] at h
  unfold kinds
  simp only [Finset.mem_product, Finset.mem_range, Finset.mem_univ, and_true]
  exact ⟨h.1, h.2.1⟩

theorem elegs_inj {ns n : Nat} (h8 : ns ≤ 8) {e e' : EContr} (he : Good ns n e) (he' : Good ns n e') (h : elegs e = elegs e') : e = e' := by
  rw [list_eq_map_gmAt e, list_eq_map_gmAt e', he.1, he'.1]
  apply List.map_congr_left
  intro A hA
  have hA := List.mem_range.1 hA
  apply gm_ext2
  · intro s _
    have h1 := congrFun h (A, s, true)
    unfold elegs at h1
    simp only [if_true] at h1
    have a1 := he.2 A hA s
    have a2 := he'.2 A hA s
    omega
  · intro s _
    have h1 := congrFun h (A, s, false)
    unfold elegs at h1
    simp only [Bool.false_eq_true, if_false] at h1
    have a1 := he.2 A hA s
    have a2 := he'.2 A hA s
    omega

/-- products over the different members of a list and of its image under an injective map -/
theorem prod_count_inj {α β M : Type} [CommMonoid M] [DecidableEq α] [DecidableEq β] (f : α → β) (l : List α) (hf : ∀ a ∈ l, ∀ b ∈ l, f a = f b → a = b) (g : ℕ → M) :
    ∏ y ∈ (l.map f : Multiset β).toFinset, g ((l.map f : Multiset β).count y) = ∏ x ∈ l.toFinset, g (l.count x) := by
  symm
  refine Finset.prod_bij (fun x _ => f x) ?_ ?_ ?_ ?_
  · intro x hx
    rw [Multiset.mem_toFinset, Multiset.mem_coe, List.mem_map]
    exact ⟨x, List.mem_toFinset.1 hx, rfl⟩
  · intro x hx y hy h
    exact hf x (List.mem_toFinset.1 hx) y (List.mem_toFinset.1 hy) h
  · intro y hy
    rw [Multiset.mem_toFinset, Multiset.mem_coe, List.mem_map] at hy
    obtain ⟨x, hx, rfl⟩ := hy
    exact ⟨x, List.mem_toFinset.2 hx, rfl⟩
  · intro x hx
    congr 1
    rw [Multiset.coe_count]
    symm
    convert count_map_inj f l x ?_
    intro b hb h
    exact hf b hb x (List.mem_toFinset.1 hx) h

/-- **the combinatorial factor is the number of realisations, times `(m-1)!` for every contraction that occurs
`m` times** -/
theorem combFactor_count {ns : Nat} (h8 : ns ≤ 8) {ops : OperatorProduct} (hv : ∀ p ∈ ops, p.Valid ns) {cs : CContr} (hg : ∀ e ∈ cs, Good ns ops.length e)
    (hne : ∀ e ∈ cs, elegs e ≠ 0)
    (hk : ∀ k ∈ kinds ns ops.length, ((cs.map (fun e => elegs e k)).sum ≤ elegs (ops.map Operator.gm) k)) :
    toRat (combFactor ns ops cs) = ((realisations ns ops cs).card : ℚ) * ∏ e ∈ cs.toFinset, ((cs.count e - 1).factorial : ℚ) := by
  have h1 := combFactor_eq hv hg hk
  have h2 := Count.card_reals Slot.cls (slots ns ops).toFinset (kinds ns ops.length) (fun x hx => cls_mem_kinds hx) (cs.map elegs : List _) (by
    intro f hf
    rw [Multiset.mem_coe, List.mem_map] at hf
    obtain ⟨e, he, rfl⟩ := hf
    refine ⟨fun k hk => ?_, hne e he⟩
    unfold kinds at hk
    simp only [Finset.mem_product, Finset.mem_range, Finset.mem_univ, and_true, not_and_or] at hk
    by_cases hA : k.1 < ops.length
    · have h := (hg e he).2 k.1 hA k.2.1
      have h3 := h.2.2 (by rcases hk with hk | hk <;> omega)
      unfold elegs
      rw [h3.1, h3.2]; simp
    · exact elegs_out (by rw [(hg e he).1]; omega)) (by
    intro k hk'
    rw [lc_slots k hk']
    have := hk k hk'
    rw [Multiset.map_coe, Multiset.sum_coe, List.map_map]
    exact this)
  rw [← realisations_eq, multinom_congr (n' := elegs (ops.map Operator.gm)) (fun k hk => lc_slots k hk), ← h1] at h2
  have h3 : (Count.multFact (cs.map elegs : Multiset (Nat × Nat × Bool → Nat)) : ℚ) = ∏ e ∈ cs.toFinset, ((cs.count e).factorial : ℚ) := by
    unfold Count.multFact
    rw [Nat.cast_prod]
    convert prod_count_inj elegs cs (fun a ha b hb h => elegs_inj h8 (hg a ha) (hg b hb) h) (fun m => ((m.factorial : Nat) : ℚ))
  have h4 : ∏ e ∈ cs.toFinset, ((cs.count e).factorial : ℚ) = (∏ e ∈ cs.toFinset, (cs.count e : ℚ)) * ∏ e ∈ cs.toFinset, ((cs.count e - 1).factorial : ℚ) := by
    rw [← Finset.prod_mul_distrib]
    apply Finset.prod_congr rfl
    intro e he
    have : 0 < cs.count e := List.count_pos_iff.2 (List.mem_toFinset.1 he)
    rw [← Nat.mul_factorial_pred (by omega)]
    push_cast; rfl
  rw [h3, h4] at h2
  have h5 : (∏ e ∈ cs.toFinset, (cs.count e : ℚ)) ≠ 0 := by
    rw [Finset.prod_ne_zero_iff]
    intro e he h
    have : 0 < cs.count e := List.count_pos_iff.2 (List.mem_toFinset.1 he)
    have : cs.count e = 0 := by exact_mod_cast h
    omega
  apply mul_right_cancel₀ h5
  rw [← h2]; ring

/-! ### evaluable contractions -/

theorem evaluable_legs_ne {o : OSI} {n : Nat} {e : EContr} (h : Evaluable o n e) : elegs e ≠ 0 := by
  intro h0
  obtain ⟨s, c, a, k, hs, hL, hnn, hc, ha, hk, _⟩ := h
  have : ((List.range n).map c).sum = 0 := by
    apply List.sum_eq_zero
    intro x hx
    obtain ⟨A, hA, rfl⟩ := List.mem_map.1 hx
    have hA := List.mem_range.1 hA
    have h1 := congrFun h0 (A, s, true)
    unfold elegs at h1
    simp only [if_true, Pi.zero_apply] at h1
    rw [(hL.2 A hA s).1, if_pos rfl] at h1
    have := (hnn A hA).1
    omega
  omega

theorem sum_toNat' {α : Type} (l : List α) (f : α → Int) (h : ∀ a ∈ l, 0 ≤ f a) : (((l.map (fun a => (f a).toNat)).sum : Nat) : Int) = (l.map f).sum := by
  induction l with
  | nil => rfl
  | cons a l ih =>
    have := h a (by simp)
    have := ih (fun b hb => h b (by simp [hb]))
    simp only [List.map_cons, List.sum_cons]
    rw [Int.natCast_add, this]; omega

theorem avail_legs {o : OSI} {ops : OperatorProduct} {cs : CContr} (h : EvalList o ops cs) :
    ∀ k ∈ kinds o.spaces.length ops.length, ((cs.map (fun e => elegs e k)).sum ≤ elegs (ops.map Operator.gm) k) := by
  intro k hk
  unfold kinds at hk
  simp only [Finset.mem_product, Finset.mem_range, Finset.mem_univ, and_true] at hk
  have hav := h.avail k.1 hk.1 k.2.1 hk.2
  have hnn : ∀ e ∈ cs, 0 ≤ (gmAt e k.1).cre k.2.1 ∧ 0 ≤ (gmAt e k.1).ann k.2.1 := by
    intro e he
    have := (evaluable_good (h.ev e he)).2 k.1 hk.1 k.2.1
    exact ⟨this.1, this.2.1⟩
  unfold elegs
  rw [gmAt_ops ops k.1 hk.1]
  unfold takenCre takenAnn at hav
  cases hc : k.2.2
  · simp only [Bool.false_eq_true, if_false]
    have := sum_toNat' cs (fun e => (gmAt e k.1).ann k.2.1) (fun e he => (hnn e he).2)
    have h2 := this.trans_le hav.2
    omega
  · simp only [if_true]
    have := sum_toNat' cs (fun e => (gmAt e k.1).cre k.2.1) (fun e he => (hnn e he).1)
    have h2 := this.trans_le hav.1
    omega

theorem combFactor_evalList {o : OSI} (h8 : o.spaces.length ≤ 8) {ops : OperatorProduct} (hv : ∀ p ∈ ops, p.Valid o.spaces.length) {cs : CContr} (h : EvalList o ops cs) :
    toRat (combFactor o.spaces.length ops cs) = ((realisations o.spaces.length ops cs).card : ℚ) * ∏ e ∈ cs.toFinset, ((cs.count e - 1).factorial : ℚ) :=
  combFactor_count h8 hv (fun e he => evaluable_good (h.ev e he)) (fun e he => evaluable_legs_ne (h.ev e he)) (avail_legs h)

end Wick
end Wicked
