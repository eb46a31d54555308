import Verif.Spec.ManyBody
import Verif.Proofs.ManyBody
import Verif.Props.GenOp
import Verif.Props.SpaceOrder
import Verif.Props.WickGeneral
import Verif.Props.BchEnd
import Verif.Props.CoupledCluster
import Verif.Props.Antisym
import Verif.Proofs.FockSpace
/-! # C93: `gen_op` is the many-body operator over the union of its spaces -/
namespace Wicked
open CppLt CppEq Rational GenOp Finset

section
variable {Ω R B : Type} [Inhabited Ω] [DecidableEq Ω] [CommRing R] [Ring B] [Algebra R B] [Algebra ℚ B]

theorem permInv_of_swap {A : Type} {F : List Ω → A} (h : ∀ pre a b post, F (pre ++ a :: b :: post) = F (pre ++ b :: a :: post)) : PermInv F := by
  have key : ∀ l l' : List Ω, l.Perm l' → ∀ pre, F (pre ++ l) = F (pre ++ l') := by
    intro l l' hp
    induction hp with
    | nil => intro pre; rfl
    | cons x _ ih => intro pre; have := ih (pre ++ [x]); simpa using this
    | swap x y l => intro pre; exact h pre _ _ l
    | trans _ _ h1 h2 => intro pre; rw [h1, h2]
  intro l l' hp
  exact key l l' hp []

/-- the tensor element times the normal product -/
def element (T : List Ω → List Ω → R) (N : List (SQType × Ω) → B) (p q : List Ω) : B :=
  T p q • N (p.map (fun x => (SQType.creation, x)) ++ (q.map (fun x => (SQType.annihilation, x))).reverse)

theorem element_left {T : List Ω → List Ω → R} {N : List (SQType × Ω) → B} (hT : ∀ u, AntisymmFun (fun l => T l u)) (hN : SwapsSign N) (q : List Ω) :
    PermInv (fun p => element T N p q) := by
  apply permInv_of_swap
  intro pre a b post
  unfold element
  have h1 := hT q pre a b post
  dsimp only at h1
  have h2 := hN (pre.map (fun x => (SQType.creation, x))) .creation a b
    (post.map (fun x => (SQType.creation, x)) ++ (q.map (fun x => (SQType.annihilation, x))).reverse)
  simp only [List.map_append, List.map_cons, List.append_assoc, List.cons_append] at h2 ⊢
  rw [h1, h2, neg_smul, smul_neg, neg_neg]

theorem element_right {T : List Ω → List Ω → R} {N : List (SQType × Ω) → B} (hT : ∀ l, AntisymmFun (T l)) (hN : SwapsSign N) (p : List Ω) :
    PermInv (element T N p) := by
  apply permInv_of_swap
  intro pre a b post
  unfold element
  have h1 := hT p pre a b post
  have h2 := hN (p.map (fun x => (SQType.creation, x)) ++ (post.map (fun x => (SQType.annihilation, x))).reverse) .annihilation b a
    (pre.map (fun x => (SQType.annihilation, x))).reverse
  simp only [List.map_append, List.map_cons, List.reverse_append, List.reverse_cons, List.append_assoc, List.cons_append, List.nil_append] at h2 ⊢
  rw [h1, h2, neg_smul, smul_neg, neg_neg]

/-- sums over functions and sums over tuples -/
theorem sum_pi_tuples {A : Type} [AddCommMonoid A] (C : Finset Ω) : ∀ (n : Nat) (F : List Ω → A),
    ∑ p ∈ Fintype.piFinset (fun _ : Fin n => C), F (List.ofFn p) = sumTuples (List.replicate n C) F := by
  intro n
  induction n with
  | zero => intro F; simp [sumTuples]
  | succ n ih =>
    intro F
    rw [List.replicate_succ, sumTuples, ← Finset.sum_congr rfl (fun x _ => ih (fun l => F (x :: l))), ← Finset.sum_product']
    symm
    refine Finset.sum_nbij' (i := fun xp => Fin.cons xp.1 xp.2) (j := fun p => (p 0, fun i => p i.succ)) ?_ ?_ ?_ ?_ ?_
    · rintro ⟨x, p⟩ h
      rw [Finset.mem_product, Fintype.mem_piFinset] at h
      rw [Fintype.mem_piFinset]
      intro i
      refine Fin.cases ?_ (fun i => ?_) i
      · exact h.1
      · exact h.2 i
    · intro p h
      rw [Fintype.mem_piFinset] at h
      rw [Finset.mem_product, Fintype.mem_piFinset]
      exact ⟨h 0, fun i => h i.succ⟩
    · rintro ⟨x, p⟩ _; simp
    · intro p _; exact Fin.cons_self_tail p
    · rintro ⟨x, p⟩ _
      rw [List.ofFn_succ]
      simp

theorem opValueOf_tuples (v : OrbSystem Ω R B) (N : List (SQType × Ω) → B) (ns : Nat) (p : Operator) :
    v.opValueOf N ns p = ((1 : ℚ) / (((List.range ns).map (fun s => ((p.gm.cre s).toNat.factorial : ℚ))).prod *
      ((List.range ns).map (fun s => ((p.gm.ann s).toNat.factorial : ℚ))).prod)) •
      sumTuples ((List.range ns).flatMap (fun s => List.replicate (p.gm.cre s).toNat (v.dom s))) (fun a =>
        sumTuples ((List.range ns).flatMap (fun s => List.replicate (p.gm.ann s).toNat (v.dom s))) (fun b => element (v.T p.label) N a b)) := by
  unfold OrbSystem.opValueOf
  congr 1
  have hset : (opSlots ns 0 p).toFinset = (creSlots ns 0 p ++ annSlots ns 0 p).toFinset := by
    unfold opSlots
    ext y; simp
  have hnd : (creSlots ns 0 p ++ annSlots ns 0 p).Nodup := by
    have := nodup_opSlots ns 0 p
    unfold opSlots at this
    exact ((List.Perm.append_left _ (List.reverse_perm _)).nodup_iff).1 this
  have e1 : ∀ x : Slot → Ω, v.T p.label ((creSlots ns 0 p).map x) ((annSlots ns 0 p).map x) • N ((opSlots ns 0 p).map (fun y => (y.type, x y))) =
      (fun w : List Ω => element (v.T p.label) N (w.take (creSlots ns 0 p).length) (w.drop (creSlots ns 0 p).length)) ((creSlots ns 0 p ++ annSlots ns 0 p).map x) := by
    intro x
    beta_reduce
    rw [List.map_append, List.take_left' (by simp), List.drop_left' (by simp)]
    unfold element opSlots
    rw [List.map_append, List.map_reverse]
    congr 3
    · rw [List.map_map]
      apply List.map_congr_left
      intro y hy
      obtain ⟨s, _, hy⟩ := List.mem_flatMap.1 hy
      obtain ⟨k, _, rfl⟩ := List.mem_map.1 hy
      rfl
    · rw [List.map_map]
      congr 1
      apply List.map_congr_left
      intro y hy
      obtain ⟨s, _, hy⟩ := List.mem_flatMap.1 hy
      obtain ⟨k, _, rfl⟩ := List.mem_map.1 hy
      rfl
  simp only [e1]
  rw [hset, sumOver_tuples _ hnd (fun y => v.dom y.space) (fun w : List Ω => element (v.T p.label) N (w.take (creSlots ns 0 p).length) (w.drop (creSlots ns 0 p).length)),
    List.map_append, sumTuples_append]
  have ec : (creSlots ns 0 p).map (fun y => v.dom y.space) = (List.range ns).flatMap (fun s => List.replicate (p.gm.cre s).toNat (v.dom s)) := by
    unfold creSlots
    rw [List.map_flatMap]
    apply List.flatMap_congr
    intro s _
    rw [List.map_map, List.eq_replicate_iff]
    simp
  have ea : (annSlots ns 0 p).map (fun y => v.dom y.space) = (List.range ns).flatMap (fun s => List.replicate (p.gm.ann s).toNat (v.dom s)) := by
    unfold annSlots
    rw [List.map_flatMap]
    apply List.flatMap_congr
    intro s _
    rw [List.map_map, List.eq_replicate_iff]
    simp
  have hl : (creSlots ns 0 p).length = ((List.range ns).flatMap (fun s => List.replicate (p.gm.cre s).toNat (v.dom s))).length := by
    rw [← ec, List.length_map]
  rw [ec, ea]
  apply sumTuples_congr
  intro u hu
  apply sumTuples_congr
  intro l _
  rw [List.take_left' (by rw [hu, hl]), List.drop_left' (by rw [hu, hl])]

/-- the numbers of the spaces with the given labels -/
def spacesOf (o : OSI) (letters : Str) : List Nat := (List.range o.spaces.length).filter (fun s => letters.any (fun c => decide (o.labelToSpace c = .ok (s : Int))))

theorem mem_spacesOf {o : OSI} {letters : Str} {s : Nat} : s ∈ spacesOf o letters ↔ s < o.spaces.length ∧ ∃ c ∈ letters, o.labelToSpace c = .ok (s : Int) := by
  unfold spacesOf
  rw [List.mem_filter]
  simp

theorem spacesOf_nodup (o : OSI) (letters : Str) : (spacesOf o letters).Nodup := List.nodup_range.filter _

theorem labelledOrbs_eq {o : OSI} (hR : GoodReg o) {letters : Str} (h : ∀ c ∈ letters, c ∈ o.spaces.map (·.label)) (v : OrbSystem Ω R B) :
    labelledOrbs v o letters = (spacesOf o letters).toFinset.biUnion (fun s => v.dom s) := by
  ext x
  unfold labelledOrbs
  rw [Finset.mem_biUnion, Finset.mem_biUnion]
  constructor
  · rintro ⟨c, hc, hx⟩
    have hc := List.mem_toFinset.1 hc
    obtain ⟨h1, h2, _⟩ := spOf_spec hR (h c hc)
    rw [h1] at hx
    exact ⟨spOf o c, List.mem_toFinset.2 (mem_spacesOf.2 ⟨h2, c, hc, h1⟩), hx⟩
  · rintro ⟨s, hs, hx⟩
    obtain ⟨_, c, hc, h1⟩ := mem_spacesOf.1 (List.mem_toFinset.1 hs)
    exact ⟨c, List.mem_toFinset.2 hc, by rw [h1]; exact hx⟩

theorem filter_flatMap {α β : Type} (P : α → Bool) (g : α → List β) (l : List α) (h : ∀ a ∈ l, P a = false → g a = []) : (l.filter P).flatMap g = l.flatMap g := by
  induction l with
  | nil => rfl
  | cons a l ih =>
    have ih := ih (fun b hb => h b (by simp [hb]))
    rw [List.filter_cons, List.flatMap_cons]
    cases hP : P a
    · simp [h a (by simp) hP, ih]
    · simp [ih]

theorem filter_prod {α : Type} (P : α → Bool) (g : α → ℚ) (l : List α) (h : ∀ a ∈ l, P a = false → g a = 1) : ((l.filter P).map g).prod = (l.map g).prod := by
  induction l with
  | nil => rfl
  | cons a l ih =>
    have ih := ih (fun b hb => h b (by simp [hb]))
    rw [List.filter_cons, List.map_cons, List.prod_cons]
    cases hP : P a
    · simp [h a (by simp) hP, ih]
    · simp [ih]

/-- the component with the given numbers of operators -/
def genComp (label : Str) (k l : Nat → Nat) : Operator := ⟨label, GraphMatrix.tab (fun s => ((k s : Int), (l s : Int)))⟩

theorem genComp_cre {label : Str} {k l : Nat → Nat} {s : Nat} (h : 8 ≤ s → k s = 0) : (genComp label k l).gm.cre s = k s := by
  unfold genComp GraphMatrix.cre
  rw [gm_get_tab]
  split
  · rfl
  · rw [h (by omega)]; rfl

theorem genComp_ann {label : Str} {k l : Nat → Nat} {s : Nat} (h : 8 ≤ s → l s = 0) : (genComp label k l).gm.ann s = l s := by
  unfold genComp GraphMatrix.ann
  rw [gm_get_tab]
  split
  · rfl
  · rw [h (by omega)]; rfl

theorem anti_zero {o : OSI} (h8 : o.spaces.length ≤ 8) {letters : Str} {n : Nat} {k : Nat → Nat} (hk : k ∈ piAntidiag (spacesOf o letters).toFinset n) {s : Nat} (hs : s ∉ spacesOf o letters) : k s = 0 := by
  by_contra h
  exact hs (List.mem_toFinset.1 ((mem_piAntidiag.1 hk).2 s h))

theorem anti_zero8 {o : OSI} (h8 : o.spaces.length ≤ 8) {letters : Str} {n : Nat} {k : Nat → Nat} (hk : k ∈ piAntidiag (spacesOf o letters).toFinset n) {s : Nat} (hs : 8 ≤ s) : k s = 0 :=
  anti_zero h8 hk (fun h => by have := (mem_spacesOf.1 h).1; omega)

theorem range_sum_spaces {o : OSI} {letters : Str} (f : Nat → Int) (h : ∀ s < o.spaces.length, s ∉ spacesOf o letters → f s = 0) :
    ((List.range o.spaces.length).map f).sum = ∑ s ∈ (spacesOf o letters).toFinset, f s := by
  rw [List.sum_toFinset _ (spacesOf_nodup o letters)]
  unfold spacesOf
  have : ∀ l : List Nat, (∀ s ∈ l, letters.any (fun c => decide (o.labelToSpace c = .ok (s : Int))) = false → f s = 0) →
      (l.map f).sum = ((l.filter (fun s : Nat => letters.any (fun c => decide (o.labelToSpace c = .ok (s : Int))))).map f).sum := by
    intro l
    induction l with
    | nil => intro _; rfl
    | cons a l ih =>
      intro h
      have ih := ih (fun b hb => h b (by simp [hb]))
      rw [List.filter_cons, List.map_cons, List.sum_cons, ih]
      split
      · simp
      · rename_i hP
        rw [h a (by simp) (by simpa using hP), zero_add]
  apply this
  intro s hs hP
  apply h s (List.mem_range.1 hs)
  unfold spacesOf
  rw [List.mem_filter]
  simp [hP]

theorem spans_iff {o : OSI} (hR : GoodReg o) (h8 : o.spaces.length ≤ 8) {letters : Str} (h : ∀ c ∈ letters, c ∈ o.spaces.map (·.label)) {n : Nat} {f : Nat → Int} :
    Spans o letters n f ↔ ∃ k ∈ piAntidiag (spacesOf o letters).toFinset n, ∀ s, f s = k s := by
  constructor
  · rintro ⟨h1, h2, h3⟩
    have hz : ∀ s, f s ≠ 0 → s ∈ spacesOf o letters := by
      intro s hs
      obtain ⟨c, hc, hc'⟩ := h2 s hs
      obtain ⟨e1, e2, _⟩ := spOf_spec hR (h c hc)
      have : spOf o c = s := by rw [e1] at hc'; simpa using hc'
      exact mem_spacesOf.2 ⟨by omega, c, hc, hc'⟩
    refine ⟨fun s => (f s).toNat, mem_piAntidiag.2 ⟨?_, ?_⟩, fun s => by have := h1 s; simp [this]⟩
    · rw [range_sum_spaces f (fun s _ hs => by by_contra hh; exact hs (hz s hh))] at h3
      have : ((∑ s ∈ (spacesOf o letters).toFinset, (f s).toNat : Nat) : Int) = n := by
        push_cast
        rw [← h3]
        apply Finset.sum_congr rfl
        intro s _
        have := h1 s
        omega
      exact_mod_cast this
    · intro s hs
      apply List.mem_toFinset.2
      apply hz
      intro hh
      simp [hh] at hs
  · rintro ⟨k, hk, hf⟩
    refine ⟨fun s => by rw [hf]; omega, fun s hs => ?_, ?_⟩
    · rw [hf] at hs
      exact (mem_spacesOf.1 (List.mem_toFinset.1 ((mem_piAntidiag.1 hk).2 s (by exact_mod_cast hs)))).2
    · rw [range_sum_spaces f (fun s _ hs => by rw [hf, anti_zero h8 hk hs]; rfl), ← (mem_piAntidiag.1 hk).1]
      push_cast
      exact Finset.sum_congr rfl (fun s _ => hf s)

theorem genOp_value_aux {o : OSI} (h8 : o.spaces.length ≤ 8) (v : OrbSystem Ω R B) {N : List (SQType × Ω) → B} (hN : SwapsSign N)
    (hv : v.Antisymmetric) (hdis : ∀ s s' : Nat, s < o.spaces.length → s' < o.spaces.length → s ≠ s' → ∀ x ∈ v.dom s, x ∉ v.dom s')
    (label cre ann : Str) (n : Nat) :
    manyBody (v.T label) N n ((spacesOf o cre).toFinset.biUnion (fun s => v.dom s)) ((spacesOf o ann).toFinset.biUnion (fun s => v.dom s)) =
      ∑ kl ∈ piAntidiag (spacesOf o cre).toFinset n ×ˢ piAntidiag (spacesOf o ann).toFinset n, v.opValueOf N o.spaces.length (genComp label kl.1 kl.2) := by
  have hd : ∀ letters : Str, ∀ s ∈ spacesOf o letters, ∀ s' ∈ spacesOf o letters, s ≠ s' → Disjoint (v.dom s) (v.dom s') := by
    intro letters s hs s' hs' hne
    rw [Finset.disjoint_left]
    intro x hx
    exact hdis s s' (mem_spacesOf.1 hs).1 (mem_spacesOf.1 hs').1 hne x hx
  unfold manyBody
  have e1 : ∀ p q : List Ω, v.T label p q • N (p.map (fun x => (SQType.creation, x)) ++ (q.map (fun x => (SQType.annihilation, x))).reverse) = element (v.T label) N p q :=
    fun p q => rfl
  simp only [e1]
  have e2 := fun p => sum_pi_tuples ((spacesOf o ann).toFinset.biUnion (fun s => v.dom s)) n (element (v.T label) N p)
  simp only [e2]
  rw [sum_pi_tuples _ n (fun p => sumTuples (List.replicate n ((spacesOf o ann).toFinset.biUnion (fun s => v.dom s))) (element (v.T label) N p))]
  rw [show (1 : ℚ) / (n.factorial * n.factorial) = (1 / n.factorial) * (1 / n.factorial) by rw [div_mul_div_comm, one_mul], mul_smul, ← sumTuples_smul]
  have hR' : ∀ p, PermInv (element (v.T label) N p) := element_right (fun l pre a b post => (hv label).2 l pre a b post) hN
  simp only [fun p => sumTuples_biUnion (fun s : Nat => v.dom s) (spacesOf o ann) (spacesOf_nodup o ann) (hd ann) n _ (hR' p)]
  rw [sumTuples_sum, Finset.smul_sum, Finset.sum_product, Finset.sum_comm]
  apply Finset.sum_congr rfl
  intro l hl
  rw [sumTuples_smul, smul_comm]
  have hL' : ∀ q, PermInv (fun p => element (v.T label) N p q) := element_left (fun u pre a b post => (hv label).1 pre a b post u) hN
  have hL : PermInv (fun p => sumTuples ((spacesOf o ann).flatMap (fun s => List.replicate (l s) (v.dom (s : Int)))) (element (v.T label) N p)) := by
    intro p p' hp
    apply sumTuples_congr
    intro q _
    exact hL' q p p' hp
  rw [sumTuples_biUnion (fun s : Nat => v.dom s) (spacesOf o cre) (spacesOf_nodup o cre) (hd cre) n _ hL, Finset.smul_sum]
  apply Finset.sum_congr rfl
  intro k hk
  rw [opValueOf_tuples, smul_smul]
  have hc : ∀ s, ((genComp label k l).gm.cre s).toNat = k s := fun s => by rw [genComp_cre (anti_zero8 h8 hk)]; simp
  have ha : ∀ s, ((genComp label k l).gm.ann s).toNat = l s := fun s => by rw [genComp_ann (anti_zero8 h8 hl)]; simp
  simp only [hc, ha]
  have f1 : ∀ (letters : Str) (m : Nat → Nat), m ∈ piAntidiag (spacesOf o letters).toFinset n →
      (spacesOf o letters).flatMap (fun s => List.replicate (m s) (v.dom (s : Int))) = (List.range o.spaces.length).flatMap (fun s => List.replicate (m s) (v.dom (s : Int))) := by
    intro letters m hm
    unfold spacesOf
    apply filter_flatMap
    intro s _ hs
    rw [anti_zero h8 hm (s := s)]
    · rfl
    · unfold spacesOf
      rw [List.mem_filter]
      simp [hs]
  have f2 : ∀ (letters : Str) (m : Nat → Nat), m ∈ piAntidiag (spacesOf o letters).toFinset n →
      ((spacesOf o letters).map (fun s => (1 / (m s).factorial : ℚ))).prod = 1 / ((List.range o.spaces.length).map (fun s => ((m s).factorial : ℚ))).prod := by
    intro letters m hm
    rw [show ((spacesOf o letters).map (fun s => (1 / (m s).factorial : ℚ))).prod = ((List.range o.spaces.length).map (fun s => (1 / (m s).factorial : ℚ))).prod from ?_]
    · have : ∀ L : List Nat, (L.map (fun s => (1 / (m s).factorial : ℚ))).prod = 1 / (L.map (fun s => ((m s).factorial : ℚ))).prod := by
        intro L
        induction L with
        | nil => simp
        | cons a L ih => rw [List.map_cons, List.prod_cons, ih, List.map_cons, List.prod_cons, div_mul_div_comm, one_mul]
      exact this _
    · unfold spacesOf
      apply filter_prod
      intro s _ hs
      rw [anti_zero h8 hm (s := s)]
      · simp
      · unfold spacesOf
        rw [List.mem_filter]
        simp [hs]
  rw [f1 ann l hl, f1 cre k hk, f2 ann l hl, f2 cre k hk]
  rw [div_mul_div_comm, one_mul, mul_comm (List.prod _)]
  rfl

/-- the product of the values of the operators of a word, summed over the expression -/
noncomputable def valHomOf (v : OrbSystem Ω R B) (N : List (SQType × Ω) → B) (ns : Nat) : OpAlg →ₐ[ℚ] B :=
  MonoidAlgebra.lift ℚ _ _ (FreeMonoid.lift (v.opValueOf N ns))

theorem valHomOf_expr (v : OrbSystem Ω R B) (N : List (SQType × Ω) → B) (ns : Nat) (E : OpExpr) :
    valHomOf v N ns (opVal E) = Lin.eval (fun w => (w.map (v.opValueOf N ns)).prod) E := by
  unfold opVal Lin.eval
  rw [map_list_sum, List.map_map]
  congr 1
  apply List.map_congr_left
  intro q _
  rw [Function.comp, map_smul]
  congr 1
  unfold valHomOf wordVal
  rw [MonoidAlgebra.lift_single, one_smul, FreeMonoid.lift_apply]
  rfl

/-- **C93**: the value of `gen_op(label, rank, cre, ann)` is the many-body operator over the union of its spaces. The normal product `N` may be any one that changes sign
when two neighbouring creation or two neighbouring annihilation operators are exchanged: the normal product with respect to a determinant, a generalised normal product, or the plain product. -/
theorem C93_gen_op (hist : List RegOp) (hok : allOk OSI.empty hist) (label cre ann : Str) (rank : Nat)
    (h8 : (runReg OSI.empty hist).spaces.length ≤ 8) (hnc : cre.Nodup) (hna : ann.Nodup)
    (hc : ∀ c ∈ cre, isAlpha c = true ∧ c ∈ (runReg OSI.empty hist).spaces.map (·.label))
    (ha : ∀ c ∈ ann, isAlpha c = true ∧ c ∈ (runReg OSI.empty hist).spaces.map (·.label))
    {v : OrbSystem Ω R B} (hv : v.Antisymmetric) {N : List (SQType × Ω) → B} (hN : SwapsSign N)
    (hdis : ∀ s s' : Nat, s < (runReg OSI.empty hist).spaces.length → s' < (runReg OSI.empty hist).spaces.length → s ≠ s' → ∀ x ∈ v.dom s, x ∉ v.dom s') :
    ∃ E, genOp (runReg OSI.empty hist) label rank cre ann true = .ok E ∧
      Lin.eval (fun w => (w.map (v.opValueOf N (runReg OSI.empty hist).spaces.length)).prod) E =
        manyBody (v.T label) N rank (labelledOrbs v (runReg OSI.empty hist) cre) (labelledOrbs v (runReg OSI.empty hist) ann) := by
  obtain ⟨E, hE, hwf, h0, h1⟩ := C38_gen_op hist hok label cre ann rank true h8 hnc hna hc ha
  refine ⟨E, hE, ?_⟩
  have hR := goodReg hist hok
  clear hE
  revert h8 hc ha hR hdis h1
  generalize runReg OSI.empty hist = o
  intro h8 hc ha hdis h1 hR
  rw [labelledOrbs_eq hR (fun c h => (hc c h).2), labelledOrbs_eq hR (fun c h => (ha c h).2), genOp_value_aux h8 v hN hv hdis]
  have hinj : ∀ a ∈ (piAntidiag (spacesOf o cre).toFinset rank ×ˢ piAntidiag (spacesOf o ann).toFinset rank).toList, ∀ b ∈ (piAntidiag (spacesOf o cre).toFinset rank ×ˢ piAntidiag (spacesOf o ann).toFinset rank).toList,
      [genComp label a.1 a.2] = [genComp label b.1 b.2] → a = b := by
    intro a ha b hb h
    rw [Finset.mem_toList, Finset.mem_product] at ha hb
    have h : genComp label a.1 a.2 = genComp label b.1 b.2 := by simpa using h
    refine Prod.ext (funext fun s => ?_) (funext fun s => ?_)
    · have := congrArg (fun p => p.gm.cre s) h
      simp only [genComp_cre (anti_zero8 h8 ha.1), genComp_cre (anti_zero8 h8 hb.1)] at this
      exact_mod_cast this
    · have := congrArg (fun p => p.gm.ann s) h
      simp only [genComp_ann (anti_zero8 h8 ha.2), genComp_ann (anti_zero8 h8 hb.2)] at this
      exact_mod_cast this
  rw [Wick.eval_unique hwf (L := (piAntidiag (spacesOf o cre).toFinset rank ×ˢ piAntidiag (spacesOf o ann).toFinset rank).toList.map (fun kl => [genComp label kl.1 kl.2]))]
  · rw [List.map_map, ← Finset.sum_map_toList]
    congr 1
    apply List.map_congr_left
    intro kl _
    simp
  · exact (Finset.nodup_toList _).map_on hinj
  · intro w
    by_cases hw : ∃ g, w = [⟨label, g⟩]
    · obtain ⟨g, rfl⟩ := hw
      rw [h1 g]
      congr 1
      rw [List.mem_map, spans_iff hR h8 (fun c h => (hc c h).2), spans_iff hR h8 (fun c h => (ha c h).2)]
      apply propext
      constructor
      · rintro ⟨⟨k, hk, ek⟩, ⟨l, hl, el⟩, _⟩
        refine ⟨(k, l), by rw [Finset.mem_toList, Finset.mem_product]; exact ⟨hk, hl⟩, ?_⟩
        have : (genComp label k l).gm = g := gm_ext2 (fun s _ => by rw [genComp_cre (anti_zero8 h8 hk), ek]) (fun s _ => by rw [genComp_ann (anti_zero8 h8 hl), el])
        rw [← this]
        rfl
      · rintro ⟨kl, hkl, he⟩
        rw [Finset.mem_toList, Finset.mem_product] at hkl
        have he : genComp label kl.1 kl.2 = ⟨label, g⟩ := by simpa using he
        have hg : g = (genComp label kl.1 kl.2).gm := by rw [he]
        refine ⟨⟨kl.1, hkl.1, fun s => ?_⟩, ⟨kl.2, hkl.2, fun s => ?_⟩, Or.inl rfl⟩
        · rw [hg, genComp_cre (anti_zero8 h8 hkl.1)]
        · rw [hg, genComp_ann (anti_zero8 h8 hkl.2)]
    · rw [h0 w (fun g hg => hw ⟨g, hg⟩), if_neg]
      intro hm
      obtain ⟨kl, _, he⟩ := List.mem_map.1 hm
      exact hw ⟨_, he.symm⟩

/-- the words of the expressions that programs build -/
def WordOk (ns M : Nat) (w : OperatorProduct) : Prop := ∀ x ∈ w, x.Valid ns ∧ ∀ s, x.gm.cre s ≤ M ∧ x.gm.ann s ≤ M

/-- number of second-quantized operators of a word -/
def wordOps (ns : Nat) (w : OperatorProduct) : Int := (w.map (fun p => ((List.range ns).map (fun s => p.gm.cre s + p.gm.ann s)).sum)).sum

theorem totalOps_word (ns : Nat) (w : OperatorProduct) : totalOps ns w = wordOps ns w := by
  unfold totalOps wordOps
  rw [Wick.map_range_opAt w (fun p => ((List.range ns).map (fun s => p.gm.cre s + p.gm.ann s)).sum)]

theorem wordOps_append (ns : Nat) (u w : OperatorProduct) : wordOps ns (u ++ w) = wordOps ns u + wordOps ns w := by
  unfold wordOps
  rw [List.map_append, List.sum_append]

theorem bind_ok' {α β : Type} {x : Res α} {f : α → Res β} {b : β} (h : x >>= f = .ok b) : ∃ a, x = .ok a ∧ f a = .ok b := by
  cases x with
  | error e => cases h
  | ok a => exact ⟨a, rfl, h⟩

theorem built_make {o : OSI} {label : Str} {cs : List Str} {unique : Bool} {E : OpExpr} (h : OpExpr.make o label cs unique = .ok E) : Built E := by
  unfold OpExpr.make at h
  have key : ∀ (cs : List Str) (e E : OpExpr), Built e → cs.foldlM (fun r s => do
      let ca ← OpExpr.countOps o (OpExpr.findOps s)
      let g ← GraphMatrix.mk2 o.spaces.length ca.1 ca.2
      let op : Operator := ⟨label, g⟩
      if unique && Lin.contains r [op] then return r
      return Lin.add r [op] (Rational.mk2 1 1)) e = (.ok E : Res OpExpr) → Built E := by
    intro cs
    induction cs with
    | nil => intro e E he h; cases h; exact he
    | cons c cs ih =>
      intro e E he h
      rw [List.foldlM_cons] at h
      obtain ⟨e', h1, h2⟩ := bind_ok' h
      refine ih e' E ?_ h2
      obtain ⟨ca, _, h1⟩ := bind_ok' h1
      obtain ⟨g, _, h1⟩ := bind_ok' h1
      dsimp only at h1
      split at h1
      · cases h1; exact he
      · cases h1; exact .add _ 1 1 (by decide) he
  exact key cs [] E .empty h

theorem genOp_words (hist : List RegOp) (hok : allOk OSI.empty hist) (label cre ann : Str) (rank : Nat)
    (h8 : (runReg OSI.empty hist).spaces.length ≤ 8) (hnc : cre.Nodup) (hna : ann.Nodup)
    (hc : ∀ c ∈ cre, isAlpha c = true ∧ c ∈ (runReg OSI.empty hist).spaces.map (·.label))
    (ha : ∀ c ∈ ann, isAlpha c = true ∧ c ∈ (runReg OSI.empty hist).spaces.map (·.label)) {E : OpExpr}
    (h : genOp (runReg OSI.empty hist) label rank cre ann true = .ok E) :
    Built E ∧ ∀ q ∈ E, WordOk (runReg OSI.empty hist).spaces.length rank q.1 ∧ wordOps (runReg OSI.empty hist).spaces.length q.1 ≤ 2 * rank := by
  obtain ⟨E', hE, hwf, h0, h1⟩ := C38_gen_op hist hok label cre ann rank true h8 hnc hna hc ha
  rw [h] at hE
  cases hE
  have hR := goodReg hist hok
  refine ⟨?_, fun q hq => ?_⟩
  · unfold genOp at h
    obtain ⟨ts, _, h⟩ := bind_ok' h
    exact built_make h
  · have hco := Lin.coef_of_mem hwf.toOk hq
    have hne := hwf.nonzero q hq
    by_cases hw : ∃ g, q.1 = [⟨label, g⟩]
    · obtain ⟨g, hg⟩ := hw
      rw [hg, h1 g] at hco
      split at hco
      · rename_i hS
        obtain ⟨s1, s2, _⟩ := hS
        obtain ⟨k, hk, ek⟩ := (spans_iff hR h8 (fun c h => (hc c h).2)).1 s1
        obtain ⟨l, hl, el⟩ := (spans_iff hR h8 (fun c h => (ha c h).2)).1 s2
        have hle : ∀ {letters : Str} {m : Nat → Nat}, m ∈ piAntidiag (spacesOf (runReg OSI.empty hist) letters).toFinset rank → ∀ s, m s ≤ rank := by
          intro letters m hm s
          by_cases hs : s ∈ spacesOf (runReg OSI.empty hist) letters
          · rw [← (mem_piAntidiag.1 hm).1]
            exact Finset.single_le_sum (f := m) (fun _ _ => Nat.zero_le _) (List.mem_toFinset.2 hs)
          · rw [anti_zero h8 hm hs]; exact Nat.zero_le _
        rw [hg]
        refine ⟨?_, ?_⟩
        · intro x hx
          obtain rfl : x = ⟨label, g⟩ := by simpa using hx
          refine ⟨fun s => ⟨s1.1 s, s2.1 s, fun hs => ⟨?_, ?_⟩⟩, fun s => ⟨?_, ?_⟩⟩
          · rw [ek, anti_zero h8 hk]; · rfl
            · intro hh; have := (mem_spacesOf.1 hh).1; omega
          · rw [el, anti_zero h8 hl]; · rfl
            · intro hh; have := (mem_spacesOf.1 hh).1; omega
          · rw [ek]; exact_mod_cast hle hk s
          · rw [el]; exact_mod_cast hle hl s
        · unfold wordOps
          simp only [List.map_cons, List.map_nil, List.sum_cons, List.sum_nil, add_zero]
          rw [List.sum_map_add, s1.2.2, s2.2.2]
          omega
      · exact absurd hco.symm hne
    · rw [h0 q.1 (fun g hg => hw ⟨g, hg⟩)] at hco
      exact absurd hco.symm hne

theorem WordOk.append {ns M M' : Nat} {u w : OperatorProduct} (hu : WordOk ns M u) (hw : WordOk ns M' w) : WordOk ns (max M M') (u ++ w) := by
  intro x hx
  rcases List.mem_append.1 hx with hx | hx
  · obtain ⟨h1, h2⟩ := hu x hx
    refine ⟨h1, fun s => ⟨?_, ?_⟩⟩
    · have := (h2 s).1; push_cast; omega
    · have := (h2 s).2; push_cast; omega
  · obtain ⟨h1, h2⟩ := hw x hx
    refine ⟨h1, fun s => ⟨?_, ?_⟩⟩
    · have := (h2 s).1; push_cast; omega
    · have := (h2 s).2; push_cast; omega

theorem hom_nested' (h : OpAlg →ₐ[ℚ] B) (a b : OpAlg) (k : Nat) : h (nested a b k) = GenProg.nestedComm (h a) (h b) k := by
  induction k with
  | zero => rfl
  | succ k ih => rw [nested, map_sub, map_mul, map_mul, ih, GenProg.nestedComm]

/-- what the programs build -/
structure RunOk (o : OSI) (v : OrbSystem Ω R B) (N : List (SQType × Ω) → B) (E : OpExpr) (M n : Nat) (x : B) : Prop where
  built : Built E
  words : ∀ q ∈ E, WordOk o.spaces.length M q.1 ∧ wordOps o.spaces.length q.1 ≤ n
  value : valHomOf v N o.spaces.length (opVal E) = x

variable {o : OSI} {v : OrbSystem Ω R B} {N : List (SQType × Ω) → B}

theorem WordOk.mono {ns M M' : Nat} {w : OperatorProduct} (h : WordOk ns M w) (hM : M ≤ M') : WordOk ns M' w :=
  fun x hx => ⟨(h x hx).1, fun s => ⟨by have := ((h x hx).2 s).1; omega, by have := ((h x hx).2 s).2; omega⟩⟩

theorem RunOk.plus {E F : OpExpr} {M n M' n' : Nat} {x y : B} (h : RunOk o v N E M n x) (k : RunOk o v N F M' n' y) :
    RunOk o v N (OpExpr.plus E F) (max M M') (max n n') (x + y) where
  built := .plus h.built k.built
  words := by
    unfold OpExpr.plus Lin.plus
    refine Lin.mem_fold_add (fun w => WordOk o.spaces.length (max M M') w ∧ wordOps o.spaces.length w ≤ ((max n n' : Nat) : Int)) (fun p : OperatorProduct × Rational => p.1) _ _ _ ?_ ?_
    · intro q hq
      have := (h.words q hq).2
      exact ⟨(h.words q hq).1.mono (le_max_left _ _), by push_cast; omega⟩
    · intro q hq
      have := (k.words q hq).2
      exact ⟨(k.words q hq).1.mono (le_max_right _ _), by push_cast; omega⟩
  value := by rw [opVal_plus (built_wf h.built).toOk (built_wf k.built).toOk, map_add, h.value, k.value]

theorem RunOk.minus {E F : OpExpr} {M n M' n' : Nat} {x y : B} (h : RunOk o v N E M n x) (k : RunOk o v N F M' n' y) :
    RunOk o v N (OpExpr.minus E F) (max M M') (max n n') (x - y) where
  built := .minus h.built k.built
  words := by
    unfold OpExpr.minus Lin.minus
    refine Lin.mem_fold_add (fun w => WordOk o.spaces.length (max M M') w ∧ wordOps o.spaces.length w ≤ ((max n n' : Nat) : Int)) (fun p : OperatorProduct × Rational => p.1) _ _ _ ?_ ?_
    · intro q hq
      have := (h.words q hq).2
      exact ⟨(h.words q hq).1.mono (le_max_left _ _), by push_cast; omega⟩
    · intro q hq
      have := (k.words q hq).2
      exact ⟨(k.words q hq).1.mono (le_max_right _ _), by push_cast; omega⟩
  value := by rw [opVal_minus (built_wf h.built).toOk (built_wf k.built).toOk, map_sub, h.value, k.value]

theorem RunOk.scale {E : OpExpr} {M n : Nat} {x : B} (h : RunOk o v N E M n x) {a d : Int} (ha : a ≠ 0) (hd : d ≠ 0) :
    RunOk o v N (Lin.smul E (Rational.mk2 a d)) M n (((a : ℚ) / d) • x) where
  built := .smul a d ha hd h.built
  words := by
    intro q hq
    unfold Lin.smul at hq
    obtain ⟨q', hq', rfl⟩ := List.mem_map.1 hq
    exact h.words q' hq'
  value := by rw [opVal_smul, map_smul, h.value, toRat_mk2]

theorem mem_mul' {Q : OperatorProduct → Prop} {X Y : OpExpr} (hXY : ∀ p ∈ X, ∀ q ∈ Y, Q (p.1 ++ q.1)) : ∀ r ∈ OpExpr.mul X Y, Q r.1 := by
  unfold OpExpr.mul
  rw [Lin.mul_eq_fold]
  refine Lin.mem_fold_add Q _ _ _ [] (by simp) ?_
  intro b hb
  obtain ⟨p, hp, hb⟩ := List.mem_flatMap.1 hb
  obtain ⟨q, hq, rfl⟩ := List.mem_map.1 hb
  exact hXY p hp q hq

theorem RunOk.mul {E F : OpExpr} {M n M' n' : Nat} {x y : B} (h : RunOk o v N E M n x) (k : RunOk o v N F M' n' y) :
    RunOk o v N (OpExpr.mul E F) (max M M') (n + n') (x * y) where
  built := .mul _ h.built k.built
  words := by
    refine mem_mul' (Q := fun w => WordOk o.spaces.length (max M M') w ∧ wordOps o.spaces.length w ≤ ((n + n' : Nat) : Int)) (fun p hp q hq => ⟨(h.words p hp).1.append (k.words q hq).1, ?_⟩)
    have := (h.words p hp).2
    have := (k.words q hq).2
    rw [wordOps_append]
    push_cast
    omega
  value := by rw [opVal_mul (built_wf h.built).toOk (built_wf k.built).toOk, map_mul, h.value, k.value]

theorem RunOk.comm {E F : OpExpr} {M n M' n' : Nat} {x y : B} (h : RunOk o v N E M n x) (k : RunOk o v N F M' n' y) :
    RunOk o v N (OpExpr.commutator E F) (max M M') (n + n') (x * y - y * x) where
  built := built_commutator h.built k.built
  words := by
    refine Wick.mem_commutator (Q := fun w => WordOk o.spaces.length (max M M') w ∧ wordOps o.spaces.length w ≤ ((n + n' : Nat) : Int)) (fun p hp q hq => ⟨⟨(h.words p hp).1.append (k.words q hq).1, ?_⟩, ⟨?_, ?_⟩⟩)
    · have := (h.words p hp).2
      have := (k.words q hq).2
      rw [wordOps_append]
      push_cast
      omega
    · rw [max_comm]
      exact (k.words q hq).1.append (h.words p hp).1
    · have := (h.words p hp).2
      have := (k.words q hq).2
      rw [wordOps_append]
      push_cast
      omega
  value := by rw [opVal_commutator (built_wf h.built).toOk (built_wf k.built).toOk, map_sub, map_mul, map_mul, h.value, k.value]

theorem RunOk.nil : RunOk o v N [] 0 0 0 := ⟨.empty, by simp, map_zero _⟩

theorem mem_bchLoop_count {ns M n m : Nat} {T : OpExpr} (hT : ∀ q ∈ T, WordOk ns M q.1 ∧ wordOps ns q.1 ≤ m) : ∀ (k i j : Nat) (A C : OpExpr),
    (∀ p ∈ A, WordOk ns M p.1 ∧ wordOps ns p.1 ≤ ((n + (j + k) * m : Nat) : Int)) → (∀ p ∈ C, WordOk ns M p.1 ∧ wordOps ns p.1 ≤ ((n + j * m : Nat) : Int)) →
    ∀ r ∈ OpExpr.bchLoop T i k A C, WordOk ns M r.1 ∧ wordOps ns r.1 ≤ ((n + (j + k) * m : Nat) : Int) := by
  intro k
  induction k with
  | zero => intro i j A C hA _; exact hA
  | succ k ih =>
    intro i j A C hA hC
    have hc : ∀ r ∈ Lin.smul (OpExpr.commutator C T) (Rational.mk2 1 ((i + 1 : Nat) : Int)), WordOk ns M r.1 ∧ wordOps ns r.1 ≤ ((n + (j + 1) * m : Nat) : Int) := by
      intro r hr
      obtain ⟨s, hs, rfl⟩ := List.mem_map.1 hr
      refine Wick.mem_commutator (Q := fun w => WordOk ns M w ∧ wordOps ns w ≤ ((n + (j + 1) * m : Nat) : Int)) (fun p hp q hq => ?_) s hs
      have h1 := (hC p hp).2
      have h2 := (hT q hq).2
      have h3 : n + (j + 1) * m = n + j * m + m := by ring
      have hM := (hC p hp).1.append (hT q hq).1
      have hM' := (hT q hq).1.append (hC p hp).1
      rw [max_self] at hM hM'
      refine ⟨⟨hM, ?_⟩, ⟨hM', ?_⟩⟩
      · rw [wordOps_append, h3, Nat.cast_add]; omega
      · rw [wordOps_append, h3, Nat.cast_add]; omega
    have he : j + (k + 1) = (j + 1) + k := by omega
    rw [he]
    refine ih (i + 1) (j + 1) _ _ ?_ hc
    unfold OpExpr.plus Lin.plus
    refine Lin.mem_fold_add (fun w => WordOk ns M w ∧ wordOps ns w ≤ ((n + (j + 1 + k) * m : Nat) : Int)) (fun p : OperatorProduct × Rational => p.1) _ _ _ (by rw [he] at hA; exact hA) ?_
    intro q hq
    refine ⟨(hc q hq).1, (hc q hq).2.trans ?_⟩
    have : n + (j + 1) * m ≤ n + (j + 1 + k) * m := Nat.add_le_add_left (Nat.mul_le_mul_right _ (by omega)) _
    exact_mod_cast this

theorem RunOk.bch {E F : OpExpr} {M n M' n' : Nat} {x y : B} (h : RunOk o v N E M n x) (k : RunOk o v N F M' n' y) (m : Nat) :
    RunOk o v N (OpExpr.bchSeries E F m) (max M M') (n + m * n') (∑ k ∈ Finset.range (m + 1), ((1 : ℚ) / k.factorial) • GenProg.nestedComm x y k) where
  built := Wick.built_bch h.built k.built m
  words := by
    have hE : ∀ p ∈ E, WordOk o.spaces.length (max M M') p.1 ∧ wordOps o.spaces.length p.1 ≤ ((n + 0 * n' : Nat) : Int) :=
      fun p hp => ⟨(h.words p hp).1.mono (le_max_left _ _), by simpa using (h.words p hp).2⟩
    have := mem_bchLoop_count (n := n) (fun q hq => ⟨(k.words q hq).1.mono (le_max_right M M'), (k.words q hq).2⟩) m 0 0 (OpExpr.plus [] E) E (by
      unfold OpExpr.plus Lin.plus
      refine Lin.mem_fold_add (fun w => WordOk o.spaces.length (max M M') w ∧ wordOps o.spaces.length w ≤ ((n + (0 + m) * n' : Nat) : Int)) (fun p : OperatorProduct × Rational => p.1) _ _ _ (by simp) ?_
      intro q hq
      refine ⟨(hE q hq).1, (hE q hq).2.trans ?_⟩
      have : n + 0 * n' ≤ n + (0 + m) * n' := Nat.add_le_add_left (Nat.mul_le_mul_right _ (by omega)) _
      exact_mod_cast this) hE
    unfold OpExpr.bchSeries
    simpa using this
  value := by
    rw [(C24_bch_series h.built k.built m).1, map_sum]
    simp only [map_smul, hom_nested', h.value, k.value, Int.toNat_natCast]

theorem run_ok {α : Type} (hist : List RegOp) (hok : allOk OSI.empty hist) (h8 : (runReg OSI.empty hist).spaces.length ≤ 8) {letters : α → Str} {S : α → Finset Ω}
    (hn : Names (runReg OSI.empty hist) v letters S) (hv : v.Antisymmetric) (hN : SwapsSign N) : ∀ {P : GenProg α}, P.NonZero →
    ∃ E, P.run (runReg OSI.empty hist) letters = .ok E ∧ RunOk (runReg OSI.empty hist) v N E P.maxRank P.numOps (P.meaning v.T N S)
  | .gen label rank cre ann, _ => by
    obtain ⟨E, h1, h2⟩ := C93_gen_op hist hok label (letters cre) (letters ann) rank h8 (hn.nodup _) (hn.nodup _) (hn.alpha _) (hn.alpha _) hv hN hn.disjoint
    obtain ⟨h3, h4⟩ := genOp_words hist hok label (letters cre) (letters ann) rank h8 (hn.nodup _) (hn.nodup _) (hn.alpha _) (hn.alpha _) h1
    refine ⟨E, h1, h3, fun q hq => ⟨(h4 q hq).1, ?_⟩, ?_⟩
    · rw [GenProg.numOps]; push_cast; exact (h4 q hq).2
    · rw [valHomOf_expr, h2, hn.orbs, hn.orbs]; rfl
  | .plus a b, h => by
    obtain ⟨E, h1, h2⟩ := run_ok hist hok h8 hn hv hN h.1
    obtain ⟨F, k1, k2⟩ := run_ok hist hok h8 hn hv hN h.2
    exact ⟨_, by rw [GenProg.run, h1, k1]; rfl, h2.plus k2⟩
  | .minus a b, h => by
    obtain ⟨E, h1, h2⟩ := run_ok hist hok h8 hn hv hN h.1
    obtain ⟨F, k1, k2⟩ := run_ok hist hok h8 hn hv hN h.2
    exact ⟨_, by rw [GenProg.run, h1, k1]; rfl, h2.minus k2⟩
  | .mul a b, h => by
    obtain ⟨E, h1, h2⟩ := run_ok hist hok h8 hn hv hN h.1
    obtain ⟨F, k1, k2⟩ := run_ok hist hok h8 hn hv hN h.2
    exact ⟨_, by rw [GenProg.run, h1, k1]; rfl, h2.mul k2⟩
  | .comm a b, h => by
    obtain ⟨E, h1, h2⟩ := run_ok hist hok h8 hn hv hN h.1
    obtain ⟨F, k1, k2⟩ := run_ok hist hok h8 hn hv hN h.2
    exact ⟨_, by rw [GenProg.run, h1, k1]; rfl, h2.comm k2⟩
  | .bch a b n, h => by
    obtain ⟨E, h1, h2⟩ := run_ok hist hok h8 hn hv hN h.1
    obtain ⟨F, k1, k2⟩ := run_ok hist hok h8 hn hv hN h.2
    exact ⟨_, by rw [GenProg.run, h1, k1]; rfl, h2.bch k2 n⟩
  | .scale n d a, h => by
    obtain ⟨E, h1, h2⟩ := run_ok (P := a) hist hok h8 hn hv hN h.2.2
    exact ⟨_, by rw [GenProg.run, h1]; rfl, h2.scale h.1 h.2.1⟩

end

section
open GenOp
theorem mem_plus' {Q : OperatorProduct → Prop} {X Y : OpExpr} (hX : ∀ p ∈ X, Q p.1) (hY : ∀ p ∈ Y, Q p.1) : ∀ r ∈ OpExpr.plus X Y, Q r.1 := by
  unfold OpExpr.plus Lin.plus
  exact Lin.mem_fold_add Q (fun p : OperatorProduct × Rational => p.1) _ _ _ hX hY

theorem mem_minus' {Q : OperatorProduct → Prop} {X Y : OpExpr} (hX : ∀ p ∈ X, Q p.1) (hY : ∀ p ∈ Y, Q p.1) : ∀ r ∈ OpExpr.minus X Y, Q r.1 := by
  unfold OpExpr.minus Lin.minus
  exact Lin.mem_fold_add Q (fun p : OperatorProduct × Rational => p.1) _ _ _ hX hY

theorem genOp_form (hist : List RegOp) (hok : allOk OSI.empty hist) (label cre ann : Str) (rank : Nat)
    (h8 : (runReg OSI.empty hist).spaces.length ≤ 8) (hnc : cre.Nodup) (hna : ann.Nodup)
    (hc : ∀ c ∈ cre, isAlpha c = true ∧ c ∈ (runReg OSI.empty hist).spaces.map (·.label))
    (ha : ∀ c ∈ ann, isAlpha c = true ∧ c ∈ (runReg OSI.empty hist).spaces.map (·.label)) {E : OpExpr}
    (h : genOp (runReg OSI.empty hist) label rank cre ann true = .ok E) :
    ∀ q ∈ E, ∃ g, q.1 = [⟨label, g⟩] ∧ Spans (runReg OSI.empty hist) cre rank g.cre ∧ Spans (runReg OSI.empty hist) ann rank g.ann := by
  obtain ⟨E', hE, hwf, h0, h1⟩ := C38_gen_op hist hok label cre ann rank true h8 hnc hna hc ha
  rw [h] at hE
  cases hE
  intro q hq
  have hco := Lin.coef_of_mem hwf.toOk hq
  by_cases hw : ∃ g, q.1 = [⟨label, g⟩]
  · obtain ⟨g, hg⟩ := hw
    refine ⟨g, hg, ?_⟩
    rw [hg, h1 g] at hco
    by_contra hS
    rw [if_neg (fun hh => hS ⟨hh.1, hh.2.1⟩)] at hco
    exact hwf.nonzero q hq hco.symm
  · rw [h0 q.1 (fun g hg => hw ⟨g, hg⟩)] at hco
    exact absurd hco.symm (hwf.nonzero q hq)

/-- every call of `gen_op` of the program -/
def Gens {α : Type} (Q : Str → Nat → α → α → Prop) : GenProg α → Prop
  | .gen label rank cre ann => Q label rank cre ann
  | .plus a b | .minus a b | .mul a b | .comm a b | .bch a b _ => Gens Q a ∧ Gens Q b
  | .scale _ _ a => Gens Q a

theorem Gens.mono {α : Type} {Q Q' : Str → Nat → α → α → Prop} (h : ∀ l r c a, Q l r c a → Q' l r c a) {P : GenProg α} (hP : Gens Q P) : Gens Q' P := by
  induction P with
  | gen label rank cre ann => exact h _ _ _ _ hP
  | plus a b iha ihb | minus a b iha ihb | mul a b iha ihb | comm a b iha ihb | bch a b n iha ihb => exact ⟨iha hP.1, ihb hP.2⟩
  | scale n d a ih => exact ih hP

theorem gens_labels {α : Type} (P : GenProg α) : Gens (fun label _ _ _ => label ∈ P.labels) P := by
  induction P with
  | gen label rank cre ann => exact List.mem_singleton.2 rfl
  | plus a b iha ihb | minus a b iha ihb | mul a b iha ihb | comm a b iha ihb | bch a b n iha ihb =>
    exact ⟨iha.mono (fun _ _ _ _ h => List.mem_append_left _ h), ihb.mono (fun _ _ _ _ h => List.mem_append_right _ h)⟩
  | scale n d a ih => exact ih

theorem gens_big {α : Type} (letters : α → Str) (P : GenProg α) :
    Gens (fun _ rank cre ann => 3 ≤ rank → (∀ c ∈ letters cre, c ∈ P.bigCre letters) ∧ ∀ c ∈ letters ann, c ∈ P.bigAnn letters) P := by
  induction P with
  | gen label rank cre ann =>
    intro h
    simp only [GenProg.bigCre, GenProg.bigAnn, if_neg (show ¬ rank ≤ 2 by omega)]
    exact ⟨fun _ h => h, fun _ h => h⟩
  | plus a b iha ihb | minus a b iha ihb | mul a b iha ihb | comm a b iha ihb | bch a b n iha ihb =>
    exact ⟨iha.mono (fun _ _ _ _ h k => ⟨fun c hc => List.mem_append_left _ ((h k).1 c hc), fun c hc => List.mem_append_left _ ((h k).2 c hc)⟩),
      ihb.mono (fun _ _ _ _ h k => ⟨fun c hc => List.mem_append_right _ ((h k).1 c hc), fun c hc => List.mem_append_right _ ((h k).2 c hc)⟩)⟩
  | scale n d a ih => exact ih

/-- programs with operators of rank one and two -/
theorem _root_.Wicked.GenProg.NoTriple.of_rank {α : Type} {letters : α → Str} {P : GenProg α} (h : P.maxRank ≤ 2) : P.NoTriple letters := by
  have : P.bigCre letters = [] := by
    induction P with
    | gen label rank cre ann => exact if_pos h
    | plus a b iha ihb | minus a b iha ihb | mul a b iha ihb | comm a b iha ihb | bch a b n iha ihb =>
      rw [GenProg.maxRank] at h
      rw [GenProg.bigCre, iha (by omega), ihb (by omega)]
      rfl
    | scale n d a ih => exact ih h
  intro c hc
  rw [this] at hc
  cases hc

/-- the products in an expression that a program builds are not empty, and their operators are those that `gen_op` makes -/
theorem run_form {α : Type} (hist : List RegOp) (hok : allOk OSI.empty hist) (h8 : (runReg OSI.empty hist).spaces.length ≤ 8) {letters : α → Str}
    (hnd : ∀ a, (letters a).Nodup) (hal : ∀ a, ∀ c ∈ letters a, isAlpha c = true ∧ c ∈ (runReg OSI.empty hist).spaces.map (·.label)) (L : Operator → Prop) {P : GenProg α}
    (hL : Gens (fun label rank cre ann => ∀ g : GraphMatrix, Spans (runReg OSI.empty hist) (letters cre) rank g.cre → Spans (runReg OSI.empty hist) (letters ann) rank g.ann → L ⟨label, g⟩) P)
    {E : OpExpr} (h : P.run (runReg OSI.empty hist) letters = .ok E) : ∀ q ∈ E, q.1 ≠ [] ∧ ∀ x ∈ q.1, L x := by
  have app : ∀ {u w : OperatorProduct}, (u ≠ [] ∧ ∀ x ∈ u, L x) → (w ≠ [] ∧ ∀ x ∈ w, L x) → u ++ w ≠ [] ∧ ∀ x ∈ u ++ w, L x := by
    intro u w hu hw
    refine ⟨by simp [hu.1], fun x hx => ?_⟩
    rcases List.mem_append.1 hx with hx | hx
    · exact hu.2 x hx
    · exact hw.2 x hx
  induction P generalizing E with
  | gen label rank cre ann =>
    intro q hq
    obtain ⟨g, hg, s1, s2⟩ := genOp_form hist hok label (letters cre) (letters ann) rank h8 (hnd _) (hnd _) (hal _) (hal _) h q hq
    rw [hg]
    refine ⟨by simp, fun x hx => ?_⟩
    rw [List.mem_singleton] at hx
    subst hx
    exact hL g s1 s2
  | plus a b iha ihb =>
    obtain ⟨X, h1, h⟩ := bind_ok' h
    obtain ⟨Y, h2, h⟩ := bind_ok' h
    cases h
    exact mem_plus' (Q := fun w => w ≠ [] ∧ ∀ x ∈ w, L x) (iha hL.1 h1) (ihb hL.2 h2)
  | minus a b iha ihb =>
    obtain ⟨X, h1, h⟩ := bind_ok' h
    obtain ⟨Y, h2, h⟩ := bind_ok' h
    cases h
    exact mem_minus' (Q := fun w => w ≠ [] ∧ ∀ x ∈ w, L x) (iha hL.1 h1) (ihb hL.2 h2)
  | scale n d a ih =>
    obtain ⟨X, h1, h⟩ := bind_ok' h
    cases h
    intro q hq
    unfold Lin.smul at hq
    obtain ⟨q', hq', rfl⟩ := List.mem_map.1 hq
    exact ih hL h1 q' hq'
  | mul a b iha ihb =>
    obtain ⟨X, h1, h⟩ := bind_ok' h
    obtain ⟨Y, h2, h⟩ := bind_ok' h
    cases h
    exact mem_mul' (Q := fun w => w ≠ [] ∧ ∀ x ∈ w, L x) (fun p hp q hq => app (iha hL.1 h1 p hp) (ihb hL.2 h2 q hq))
  | comm a b iha ihb =>
    obtain ⟨X, h1, h⟩ := bind_ok' h
    obtain ⟨Y, h2, h⟩ := bind_ok' h
    cases h
    exact Wick.mem_commutator (Q := fun w => w ≠ [] ∧ ∀ x ∈ w, L x) (fun p hp q hq => ⟨app (iha hL.1 h1 p hp) (ihb hL.2 h2 q hq), app (ihb hL.2 h2 q hq) (iha hL.1 h1 p hp)⟩)
  | bch a b n iha ihb =>
    obtain ⟨X, h1, h⟩ := bind_ok' h
    obtain ⟨Y, h2, h⟩ := bind_ok' h
    cases h
    exact Wick.mem_bch (Q := fun w => w ≠ [] ∧ ∀ x ∈ w, L x) (iha hL.1 h1) (fun q hq p hp => ⟨app hp (ihb hL.2 h2 q hq), app (ihb hL.2 h2 q hq) hp⟩) n

theorem run_labels' {α : Type} (hist : List RegOp) (hok : allOk OSI.empty hist) (h8 : (runReg OSI.empty hist).spaces.length ≤ 8) {letters : α → Str}
    (hnd : ∀ a, (letters a).Nodup) (hal : ∀ a, ∀ c ∈ letters a, isAlpha c = true ∧ c ∈ (runReg OSI.empty hist).spaces.map (·.label)) (L : Str → Prop) {P : GenProg α} (hL : ∀ lab ∈ P.labels, L lab)
    {E : OpExpr} (h : P.run (runReg OSI.empty hist) letters = .ok E) : ∀ q ∈ E, q.1 ≠ [] ∧ ∀ x ∈ q.1, L x.label :=
  run_form hist hok h8 hnd hal (fun x => L x.label) ((gens_labels P).mono (fun _ _ _ _ h _ _ _ => hL _ h)) h

theorem spans_le {o : OSI} {letters : Str} {rank : Nat} {f : Nat → Int} (h : Spans o letters rank f) {s : Nat} (hs : s < o.spaces.length) : f s ≤ rank := by
  rw [← h.2.2]
  refine List.single_le_sum ?_ _ (List.mem_map_of_mem (List.mem_range.2 hs))
  intro x hx
  obtain ⟨t, _, rfl⟩ := List.mem_map.1 hx
  exact h.1 t

/-- in the expression that such a program builds no three alike contractions are possible -/
theorem run_noTriples {α : Type} (hist : List RegOp) (hok : allOk OSI.empty hist) (h8 : (runReg OSI.empty hist).spaces.length ≤ 8) {letters : α → Str}
    (hnd : ∀ a, (letters a).Nodup) (hal : ∀ a, ∀ c ∈ letters a, isAlpha c = true ∧ c ∈ (runReg OSI.empty hist).spaces.map (·.label)) {P : GenProg α} (hP : P.NoTriple letters)
    {E : OpExpr} (h : P.run (runReg OSI.empty hist) letters = .ok E) : ∀ q ∈ E, NoTriples (runReg OSI.empty hist) q.1 := by
  have hR := goodReg hist hok
  have hreg : ∀ {a : α} {c : Char} {s : Nat}, c ∈ letters a → (runReg OSI.empty hist).labelToSpace c = .ok (s : Int) →
      s < (runReg OSI.empty hist).spaces.length ∧ ∃ x, (runReg OSI.empty hist).spaces[s]? = some x ∧ x.label = c := by
    intro a c s hc hs
    obtain ⟨e1, e2, e3⟩ := spOf_spec hR (hal a c hc).2
    have : spOf (runReg OSI.empty hist) c = s := by rw [e1] at hs; simpa using hs
    rw [this] at e2 e3
    exact ⟨e2, e3⟩
  have hw := run_form hist hok h8 hnd hal (fun x => ∀ s : Nat, (3 ≤ x.gm.cre s → ∃ c ∈ P.bigCre letters, ∃ y, (runReg OSI.empty hist).spaces[s]? = some y ∧ y.label = c) ∧
      (3 ≤ x.gm.ann s → ∃ c ∈ P.bigAnn letters, ∃ y, (runReg OSI.empty hist).spaces[s]? = some y ∧ y.label = c)) ((gens_big letters P).mono (by
    intro label rank cre ann hbig g s1 s2 s
    refine ⟨fun h3 => ?_, fun h3 => ?_⟩
    · have h3 : 3 ≤ g.cre s := h3
      obtain ⟨c, hc, hs⟩ := s1.2.1 s (by omega)
      obtain ⟨e1, e2⟩ := hreg hc hs
      have hle := spans_le s1 e1
      exact ⟨c, (hbig (by omega)).1 c hc, e2⟩
    · have h3 : 3 ≤ g.ann s := h3
      obtain ⟨c, hc, hs⟩ := s2.2.1 s (by omega)
      obtain ⟨e1, e2⟩ := hreg hc hs
      have hle := spans_le s2 e1
      exact ⟨c, (hbig (by omega)).2 c hc, e2⟩)) h
  intro q hq i j s hi hj _ hc ha
  exfalso
  obtain ⟨c, hc, y, hy, ey⟩ := ((hw q hq).2 _ (Wick.opAt_mem_ops hi) s).1 hc
  obtain ⟨c', hc', y', hy', ey'⟩ := ((hw q hq).2 _ (Wick.opAt_mem_ops hj) s).2 ha
  rw [hy] at hy'
  cases hy'
  rw [ey] at ey'
  subst ey'
  exact hP c hc hc'

end

section
variable {Ω R B : Type} [Inhabited Ω] [DecidableEq Ω] [CommRing R] [Ring B] [Algebra R B] [Algebra ℚ B]
variable {o : OSI} {v : OrbSystem Ω R B} {N : List (SQType × Ω) → B}
variable [Algebra ℚ R] [IsScalarTower ℚ R B]

/-- **C93**: the value of an operator expression that a program builds from calls of `gen_op` is what the program says, with every `gen_op` read as the many-body operator over the union of its spaces. -/
theorem C93_program {α : Type} (hist : List RegOp) (hok : allOk OSI.empty hist) (h8 : (runReg OSI.empty hist).spaces.length ≤ 8) {letters : α → Str} {S : α → Finset Ω}
    (hn : Names (runReg OSI.empty hist) v letters S) (hv : v.Antisymmetric) (hN : SwapsSign N) {P : GenProg α} (hP : P.NonZero) :
    ∃ E, P.run (runReg OSI.empty hist) letters = .ok E ∧
      Lin.eval (fun w => (w.map (v.opValueOf N (runReg OSI.empty hist).spaces.length)).prod) E = P.meaning v.T N S := by
  obtain ⟨E, h1, h2⟩ := run_ok hist hok h8 hn hv hN hP
  exact ⟨E, h1, by rw [← valHomOf_expr, h2.value]⟩

/-- **C93**, contraction with respect to a determinant: `wt.contract(f, P, minr, maxr)` has the value of the program, read with many-body operators over sets of orbitals, however the sets are divided into spaces.
Missing: programs in which an operator of rank three or higher creates in a space in which another annihilates; there the code counts three or more alike contractions wrongly (C50). -/
theorem C93_contract_partial {α : Type} (hist : List RegOp) (hok : allOk OSI.empty hist) (h8 : (runReg OSI.empty hist).spaces.length ≤ 8) {letters : α → Str} {S : α → Finset Ω}
    (hn : Names (runReg OSI.empty hist) v letters S) (hv : v.Antisymmetric) (hcar : IsCAR v.op) {hole : Ω → Bool} (hvac : v.Vacuum (runReg OSI.empty hist) hole)
    {P : GenProg α} (hP : P.NonZero) (h2 : P.NoTriple letters) {cfg : WickCfg} {f : Rational} (hf : Canon f) {minr maxr : Int} {E : OpExpr} {e : Expr} (hE : P.run (runReg OSI.empty hist) letters = .ok E)
    (h : Wick.contractExpr (runReg OSI.empty hist) cfg f E minr maxr = .ok e) (hmin : minr ≤ 0) (hmax : P.numOps ≤ maxr) :
    Lin.eval (v.normalValue hole) e = toRat f • P.meaning v.T (normalProd hole v.op) S := by
  obtain ⟨E', h1, hr⟩ := run_ok hist hok h8 hn hv (C81_normal_product hcar hole) hP
  rw [hE] at h1
  cases h1
  rw [Wick.C53_operator_product_expr_partial h8 (fun q hq p hp => ((hr.words q hq).1 p hp).1) (run_noTriples hist hok h8 hn.nodup hn.alpha h2 hE)
    (built_wf hr.built).toOk.canon hf h hmin (fun q hq => by rw [totalOps_word]; exact (hr.words q hq).2.trans hmax) hv hcar hvac, ← hr.value, valHomOf_expr]
  rfl

/-- **C93**, contraction with respect to a correlated reference. Missing: as in `C93_contract_partial`. -/
theorem C93_generalized_partial {α : Type} (hist : List RegOp) (hok : allOk OSI.empty hist) (h8 : (runReg OSI.empty hist).spaces.length ≤ 8) {letters : α → Str} {S : α → Finset Ω}
    (hn : Names (runReg OSI.empty hist) v letters S) (hv : v.Antisymmetric) (hcar : IsCAR v.op) {cfg : WickCfg} (hmc : 1 ≤ cfg.maxCumulant) {ρ : Reference Ω R}
    (href : v.HasReference (runReg OSI.empty hist) cfg.maxCumulant ρ) (hρ : ρ.Antisymmetric) (hN : IsGNO v.op ρ N)
    {P : GenProg α} (hP : P.NonZero) (h2 : P.NoTriple letters) {f : Rational} (hf : Canon f) {minr maxr : Int} {E : OpExpr} {e : Expr} (hE : P.run (runReg OSI.empty hist) letters = .ok E)
    (h : Wick.contractExpr (runReg OSI.empty hist) cfg f E minr maxr = .ok e) (hmin : minr ≤ 0) (hmax : P.numOps ≤ maxr) :
    Lin.eval (v.normalValueOf N) e = toRat f • P.meaning v.T N S := by
  have hsw : SwapsSign N := fun xs ty a b ys => (Wick.C72_gno_properties hcar hρ hN).1 xs (ty, a) (ty, b) ys
  obtain ⟨E', h1, hr⟩ := run_ok hist hok h8 hn hv hsw hP
  rw [hE] at h1
  cases h1
  rw [Wick.C72_generalized_product_expr_partial h8 (fun q hq p hp => ((hr.words q hq).1 p hp).1) (run_noTriples hist hok h8 hn.nodup hn.alpha h2 hE)
    (built_wf hr.built).toOk.canon hmc hf h hmin (fun q hq => by rw [totalOps_word]; exact (hr.words q hq).2.trans hmax) hv hcar href hN, ← hr.value, valHomOf_expr]
  rfl

/-- **C93**, another division of the orbitals into spaces: the same program, run with two registries that divide the orbitals differently (spin orbitals or their alpha and beta halves, with or without a frozen core),
is contracted to expressions of the same value. Missing: as in `C93_contract_partial`. -/
theorem C93_partition_partial {α : Type} (hist hist' : List RegOp) (hok : allOk OSI.empty hist) (hok' : allOk OSI.empty hist')
    (h8 : (runReg OSI.empty hist).spaces.length ≤ 8) (h8' : (runReg OSI.empty hist').spaces.length ≤ 8) {v' : OrbSystem Ω R B} (hT : v'.T = v.T) (hop : v'.op = v.op)
    {letters letters' : α → Str} {S : α → Finset Ω} (hn : Names (runReg OSI.empty hist) v letters S) (hn' : Names (runReg OSI.empty hist') v' letters' S)
    (hv : v.Antisymmetric) (hcar : IsCAR v.op) {hole : Ω → Bool} (hvac : v.Vacuum (runReg OSI.empty hist) hole) (hvac' : v'.Vacuum (runReg OSI.empty hist') hole)
    {P : GenProg α} (hP : P.NonZero) (h2 : P.NoTriple letters) (h2' : P.NoTriple letters') {cfg cfg' : WickCfg} {f : Rational} (hf : Canon f) {minr maxr : Int} (hmin : minr ≤ 0) (hmax : P.numOps ≤ maxr) {E E' : OpExpr} {e e' : Expr}
    (hE : P.run (runReg OSI.empty hist) letters = .ok E) (hE' : P.run (runReg OSI.empty hist') letters' = .ok E')
    (h : Wick.contractExpr (runReg OSI.empty hist) cfg f E minr maxr = .ok e) (h' : Wick.contractExpr (runReg OSI.empty hist') cfg' f E' minr maxr = .ok e') :
    Lin.eval (v'.normalValue hole) e' = Lin.eval (v.normalValue hole) e := by
  rw [C93_contract_partial hist hok h8 hn hv hcar hvac hP h2 hf hE h hmin hmax,
    C93_contract_partial hist' hok' h8' hn' (by intro lab; rw [hT]; exact hv lab) (by rw [hop]; exact hcar) hvac' hP h2' hf hE' h' hmin hmax, hT, hop]

omit [Algebra ℚ R] [IsScalarTower ℚ R B] in
/-- one space on both sides -/
theorem one_space_value {o : OSI} (h8 : o.spaces.length ≤ 8) (v : OrbSystem Ω R B) {N : List (SQType × Ω) → B} (hN : SwapsSign N) (hv : v.Antisymmetric)
    (hdis : ∀ s s' : Nat, s < o.spaces.length → s' < o.spaces.length → s ≠ s' → ∀ x ∈ v.dom s, x ∉ v.dom s') (label : Str) (n : Nat) {c : Char} {s : Nat} (hs : s < o.spaces.length)
    (hc : o.labelToSpace c = .ok (s : Int)) :
    manyBody (v.T label) N n (labelledOrbs v o [c]) (labelledOrbs v o [c]) = v.opValueOf N o.spaces.length (genComp label (Pi.single s n) (Pi.single s n)) := by
  have h1 : (spacesOf o [c]).toFinset = {s} := by
    ext t
    rw [List.mem_toFinset, mem_spacesOf, Finset.mem_singleton]
    constructor
    · rintro ⟨_, d, hd, hd'⟩
      rw [List.mem_singleton.1 hd, hc] at hd'
      injection hd' with hd'
      omega
    · rintro rfl
      exact ⟨hs, c, by simp, hc⟩
  have h2 : labelledOrbs v o [c] = (spacesOf o [c]).toFinset.biUnion (fun s => v.dom s) := by
    rw [h1, Finset.singleton_biUnion]
    unfold labelledOrbs
    simp [hc]
  have h3 : piAntidiag ({s} : Finset Nat) n = {Pi.single s n} := by
    ext f
    rw [mem_piAntidiag, Finset.mem_singleton, Finset.sum_singleton]
    constructor
    · rintro ⟨e1, e2⟩
      funext t
      by_cases ht : t = s
      · subst ht; simp [e1]
      · rw [Pi.single_eq_of_ne ht]
        by_contra hh
        exact ht (Finset.mem_singleton.1 (e2 t hh))
    · rintro rfl
      refine ⟨by simp, fun t ht => ?_⟩
      by_contra hh
      exact ht (Pi.single_eq_of_ne (by simpa using hh) _)
  rw [h2, genOp_value_aux h8 v hN hv hdis, h1, h3, Finset.singleton_product_singleton, Finset.sum_singleton]

omit [Algebra ℚ R] [IsScalarTower ℚ R B] in
/-- **C93**, `diagonal=False`: only the components with all operators of both kinds in one space are left out. -/
theorem C93_gen_op_diagonal (hist : List RegOp) (hok : allOk OSI.empty hist) (label cre ann : Str) (rank : Nat) (hrank : 1 ≤ rank)
    (h8 : (runReg OSI.empty hist).spaces.length ≤ 8) (hnc : cre.Nodup) (hna : ann.Nodup)
    (hc : ∀ c ∈ cre, isAlpha c = true ∧ c ∈ (runReg OSI.empty hist).spaces.map (·.label))
    (ha : ∀ c ∈ ann, isAlpha c = true ∧ c ∈ (runReg OSI.empty hist).spaces.map (·.label))
    {v : OrbSystem Ω R B} (hv : v.Antisymmetric) {N : List (SQType × Ω) → B} (hN : SwapsSign N)
    (hdis : ∀ s s' : Nat, s < (runReg OSI.empty hist).spaces.length → s' < (runReg OSI.empty hist).spaces.length → s ≠ s' → ∀ x ∈ v.dom s, x ∉ v.dom s') :
    ∃ E, genOp (runReg OSI.empty hist) label rank cre ann false = .ok E ∧
      Lin.eval (fun w => (w.map (v.opValueOf N (runReg OSI.empty hist).spaces.length)).prod) E =
        manyBody (v.T label) N rank (labelledOrbs v (runReg OSI.empty hist) cre) (labelledOrbs v (runReg OSI.empty hist) ann) -
          ∑ c ∈ cre.toFinset ∩ ann.toFinset, manyBody (v.T label) N rank (labelledOrbs v (runReg OSI.empty hist) [c]) (labelledOrbs v (runReg OSI.empty hist) [c]) := by
  obtain ⟨E, hE, hwf, h0, h1⟩ := C38_gen_op hist hok label cre ann rank false h8 hnc hna hc ha
  obtain ⟨F, hF, hwf', k0, k1⟩ := C38_gen_op hist hok label cre ann rank true h8 hnc hna hc ha
  obtain ⟨F', hF', hval⟩ := C93_gen_op hist hok label cre ann rank h8 hnc hna hc ha hv hN hdis
  rw [hF] at hF'
  cases hF'
  refine ⟨E, hE, ?_⟩
  rw [← hval]
  have hR := goodReg hist hok
  clear hE hF hval
  revert h8 hc ha hR hdis h1 k1
  generalize runReg OSI.empty hist = o
  intro h8 hc ha hdis h1 k1 hR
  -- the components that are left out
  let D : OpExpr := Lin.minus F E
  have hDev : Lin.eval (fun w => (w.map (v.opValueOf N o.spaces.length)).prod) D =
      Lin.eval (fun w => (w.map (v.opValueOf N o.spaces.length)).prod) F - Lin.eval (fun w => (w.map (v.opValueOf N o.spaces.length)).prod) E :=
    Lin.eval_minus _ (fun a b h => by rw [eqv_eq.1 h]) hwf'.toOk hwf.toOk
  rw [show Lin.eval (fun w => (w.map (v.opValueOf N o.spaces.length)).prod) E = Lin.eval (fun w => (w.map (v.opValueOf N o.spaces.length)).prod) F -
    Lin.eval (fun w => (w.map (v.opValueOf N o.spaces.length)).prod) D by rw [hDev]; abel]
  congr 1
  have hsp : ∀ c ∈ cre.toFinset ∩ ann.toFinset, o.labelToSpace c = .ok (spOf o c : Int) ∧ spOf o c < o.spaces.length := by
    intro c hcc
    have := (hc c (List.mem_toFinset.1 (Finset.mem_inter.1 hcc).1)).2
    exact ⟨(spOf_spec hR this).1, (spOf_spec hR this).2.1⟩
  rw [Finset.sum_congr rfl (fun c hcc => one_space_value h8 v hN hv hdis label rank (hsp c hcc).2 (hsp c hcc).1)]
  have hDwf : Lin.WF D := (Lin.minus_spec hwf'.toOk hwf.toOk).2.1 hwf'
  have hDco : ∀ w, Lin.coef D w = Lin.coef F w - Lin.coef E w := (Lin.minus_spec hwf'.toOk hwf.toOk).2.2
  have hcc : ∀ {s t : Nat}, s < o.spaces.length → ((genComp label (Pi.single s rank) (Pi.single s rank)).gm.cre t = if t = s then (rank : Int) else 0) ∧
      (genComp label (Pi.single s rank) (Pi.single s rank)).gm.ann t = if t = s then (rank : Int) else 0 := by
    intro s t hs
    have hz : 8 ≤ t → (Pi.single s rank : Nat → Nat) t = 0 := fun ht => Pi.single_eq_of_ne (by omega) _
    rw [genComp_cre hz, genComp_ann hz]
    by_cases h : t = s
    · subst h; simp
    · simp [h]
  rw [Wick.eval_unique hDwf (L := (cre.toFinset ∩ ann.toFinset).toList.map (fun c => [genComp label (Pi.single (spOf o c) rank) (Pi.single (spOf o c) rank)]))]
  · rw [List.map_map, ← Finset.sum_map_toList]
    congr 1
    apply List.map_congr_left
    intro c _
    simp
  · refine (Finset.nodup_toList _).map_on ?_
    intro a ha' b hb h
    rw [Finset.mem_toList] at ha' hb
    have h : genComp label (Pi.single (spOf o a) rank) (Pi.single (spOf o a) rank) = genComp label (Pi.single (spOf o b) rank) (Pi.single (spOf o b) rank) := by simpa using h
    have h := congrArg (fun p => p.gm.cre (spOf o a)) h
    simp only [(hcc (hsp a ha').2).1, (hcc (hsp b hb).2).1] at h
    rw [if_pos trivial] at h
    split at h
    · rename_i he
      exact spOf_inj hR (hc a (List.mem_toFinset.1 (Finset.mem_inter.1 ha').1)).2 (hc b (List.mem_toFinset.1 (Finset.mem_inter.1 hb).1)).2 he
    · omega
  · intro w
    rw [hDco]
    by_cases hw : ∃ g, w = [⟨label, g⟩]
    · obtain ⟨g, rfl⟩ := hw
      rw [h1 g, k1 g]
      have key : [(⟨label, g⟩ : Operator)] ∈ (cre.toFinset ∩ ann.toFinset).toList.map (fun c => [genComp label (Pi.single (spOf o c) rank) (Pi.single (spOf o c) rank)]) ↔
          Spans o cre rank g.cre ∧ Spans o ann rank g.ann ∧ SameString o g := by
        constructor
        · intro hm
          obtain ⟨c, hcm, he⟩ := List.mem_map.1 hm
          rw [Finset.mem_toList] at hcm
          have he : genComp label (Pi.single (spOf o c) rank) (Pi.single (spOf o c) rank) = ⟨label, g⟩ := by simpa using he
          have hg : g = (genComp label (Pi.single (spOf o c) rank) (Pi.single (spOf o c) rank)).gm := by rw [he]
          have g1 : ∀ t, g.cre t = if t = spOf o c then (rank : Int) else 0 := fun t => by rw [hg, (hcc (hsp c hcm).2).1]
          have g2 : ∀ t, g.ann t = if t = spOf o c then (rank : Int) else 0 := fun t => by rw [hg, (hcc (hsp c hcm).2).2]
          have hsum : ((List.range o.spaces.length).map (fun t => if t = spOf o c then (rank : Int) else 0)).sum = rank := by
            rw [← List.sum_toFinset _ List.nodup_range, List.toFinset_range, Finset.sum_ite_eq', if_pos (Finset.mem_range.2 (hsp c hcm).2)]
          have hspan : ∀ (letters : Str) (f : Nat → Int), c ∈ letters → (∀ t, f t = if t = spOf o c then (rank : Int) else 0) → Spans o letters rank f := by
            intro letters f hcl hf
            refine ⟨fun t => by rw [hf]; split <;> omega, fun t ht => ?_, ?_⟩
            · rw [hf] at ht
              split at ht
              · rename_i h; exact ⟨c, hcl, by rw [h]; exact (hsp c hcm).1⟩
              · exact absurd rfl ht
            · rw [show f = fun t => if t = spOf o c then (rank : Int) else 0 from funext hf]; exact hsum
          refine ⟨hspan cre _ (List.mem_toFinset.1 (Finset.mem_inter.1 hcm).1) g1, hspan ann _ (List.mem_toFinset.1 (Finset.mem_inter.1 hcm).2) g2, spOf o c, fun t => ⟨by rw [g1, g2], fun ht => by rw [g1, if_neg ht]⟩⟩
        · rintro ⟨s1, s2, s, hS⟩
          have hsn : s < o.spaces.length := by
            by_contra hh
            have : ((List.range o.spaces.length).map g.cre).sum = 0 := by
              apply List.sum_eq_zero
              intro x hx
              obtain ⟨t, ht, rfl⟩ := List.mem_map.1 hx
              exact (hS t).2 (by have := List.mem_range.1 ht; omega)
            rw [s1.2.2] at this
            omega
          have hgs : g.cre s = rank := by
            rw [← s1.2.2, ← List.sum_toFinset _ List.nodup_range, List.toFinset_range, Finset.sum_eq_single s]
            · intro t _ ht; exact (hS t).2 ht
            · intro h; exact absurd (Finset.mem_range.2 hsn) h
          obtain ⟨c, hc1, hc2⟩ := s1.2.1 s (by rw [hgs]; omega)
          obtain ⟨d, hd1, hd2⟩ := s2.2.1 s (by rw [← (hS s).1, hgs]; omega)
          have ec := spOf_spec hR (hc c hc1).2
          have ed := spOf_spec hR (ha d hd1).2
          have ec' : spOf o c = s := by have := ec.1; rw [hc2] at this; injection this with this; omega
          have ed' : spOf o d = s := by have := ed.1; rw [hd2] at this; injection this with this; omega
          have hcd : c = d := spOf_inj hR (hc c hc1).2 (ha d hd1).2 (by rw [ec', ed'])
          subst hcd
          refine List.mem_map.2 ⟨c, by rw [Finset.mem_toList]; exact Finset.mem_inter.2 ⟨List.mem_toFinset.2 hc1, List.mem_toFinset.2 hd1⟩, ?_⟩
          have : (genComp label (Pi.single (spOf o c) rank) (Pi.single (spOf o c) rank)).gm = g := by
            refine gm_ext2 (fun t _ => ?_) (fun t _ => ?_)
            · rw [(hcc ec.2.1).1, ec']
              split
              · rename_i h; rw [h, hgs]
              · rename_i h; rw [(hS t).2 h]
            · rw [(hcc ec.2.1).2, ec', ← (hS t).1]
              split
              · rename_i h; rw [h, hgs]
              · rename_i h; rw [(hS t).2 h]
          rw [← this]
          rfl
      by_cases hS : Spans o cre rank g.cre ∧ Spans o ann rank g.ann
      · by_cases hq : SameString o g
        · rw [if_pos ⟨hS.1, hS.2, Or.inl rfl⟩, if_neg (by rintro ⟨_, _, h | h⟩; · cases h
                                                          · exact h hq), if_pos (key.2 ⟨hS.1, hS.2, hq⟩), sub_zero]
        · rw [if_pos ⟨hS.1, hS.2, Or.inl rfl⟩, if_pos ⟨hS.1, hS.2, Or.inr hq⟩, if_neg (fun h => hq (key.1 h).2.2), sub_self]
      · rw [if_neg (fun h => hS ⟨h.1, h.2.1⟩), if_neg (fun h => hS ⟨h.1, h.2.1⟩), if_neg (fun h => hS ⟨(key.1 h).1, (key.1 h).2.1⟩), sub_self]
    · rw [h0 w (fun g hg => hw ⟨g, hg⟩), k0 w (fun g hg => hw ⟨g, hg⟩), if_neg, sub_zero]
      intro hm
      obtain ⟨c, _, he⟩ := List.mem_map.1 hm
      exact hw ⟨_, he.symm⟩
end
end Wicked

namespace Wicked
open GenOp
/-! ## An example: four orbitals, two of them occupied, with and without a separate core -/

/-- with a core space -/
def coreHistory : List RegOp := [.add 'c' .fermion .occupied [] [], .add 'o' .fermion .occupied [] [], .add 'v' .fermion .unoccupied [] []]

/-- orbitals 0 and 1 are occupied -/
def hole4 (x : Fin 4) : Bool := x.val < 2

/-- one-body tensors on four orbitals -/
noncomputable def four (dom : Int → Finset (Fin 4)) : OrbSystem (Fin 4) ℚ (Module.End ℚ (FockSpace (Fin 4) ℚ)) :=
  ⟨dom, fun _ l u => if l.length ≤ 1 ∧ u.length ≤ 1 then 1 else 0, fockOp ℚ hole4⟩

/-- occupied and virtual orbitals -/
def dom2 (s : Int) : Finset (Fin 4) := if s = 0 then {0, 1} else {2, 3}
/-- core, occupied and virtual orbitals -/
def dom3 (s : Int) : Finset (Fin 4) := if s = 0 then {0} else if s = 1 then {1} else {2, 3}

/-- names 0, 1, 2: all, occupied, virtual orbitals -/
def orbs4 (a : Fin 3) : Finset (Fin 4) := if a = 0 then {0, 1, 2, 3} else if a = 1 then {0, 1} else {2, 3}
/-- their labels without a core space -/
def letters2 (a : Fin 3) : Str := if a = 0 then "ov".toList else if a = 1 then "o".toList else "v".toList
/-- their labels with a core space -/
def letters3 (a : Fin 3) : Str := if a = 0 then "cov".toList else if a = 1 then "co".toList else "v".toList

/-- `gen_op("H", 1, all, all) @ gen_op("T", 1, virtual, occupied)` -/
def prog4 : GenProg (Fin 3) := .mul (.gen "H".toList 1 0 0) (.gen "T".toList 1 2 1)

theorem four_anti (dom : Int → Finset (Fin 4)) : (four dom).Antisymmetric := by
  intro lab
  refine ⟨fun pre a b post u => ?_, fun l pre a b post => ?_⟩
  · simp only [four, List.length_append, List.length_cons]
    rw [if_neg (by omega)]; simp
  · simp only [four, List.length_append, List.length_cons]
    rw [if_neg (by omega)]; simp

theorem names2 : Names (runReg OSI.empty Wick.srHistory) (four dom2) letters2 orbs4 where
  nodup := by decide +kernel
  alpha := by decide +kernel
  orbs := by
    intro a
    show (letters2 a).toFinset.biUnion (fun c => match (runReg OSI.empty Wick.srHistory).labelToSpace c with | .ok s => dom2 s | .error _ => ∅) = orbs4 a
    revert a; decide +kernel
  disjoint := by
    intro s s' hs hs' hne
    have hs : s < 2 := hs
    have hs' : s' < 2 := hs'
    show ∀ x ∈ dom2 s, x ∉ dom2 s'
    interval_cases s <;> interval_cases s' <;> first | exact absurd rfl hne | decide

theorem names3 : Names (runReg OSI.empty coreHistory) (four dom3) letters3 orbs4 where
  nodup := by decide +kernel
  alpha := by decide +kernel
  orbs := by
    intro a
    show (letters3 a).toFinset.biUnion (fun c => match (runReg OSI.empty coreHistory).labelToSpace c with | .ok s => dom3 s | .error _ => ∅) = orbs4 a
    revert a; decide +kernel
  disjoint := by
    intro s s' hs hs' hne
    have hs : s < 3 := hs
    have hs' : s' < 3 := hs'
    show ∀ x ∈ dom3 s, x ∉ dom3 s'
    interval_cases s <;> interval_cases s' <;> first | exact absurd rfl hne | decide

theorem vac2 : (four dom2).Vacuum (runReg OSI.empty Wick.srHistory) hole4 := by
  refine ⟨?_, names2.disjoint⟩
  intro s hs
  have hs : s < 2 := hs
  interval_cases s
  · left; exact ⟨by decide +kernel, by show ∀ x ∈ dom2 0, hole4 x = true; decide⟩
  · right; exact ⟨by decide +kernel, by show ∀ x ∈ dom2 1, hole4 x = false; decide⟩

theorem vac3 : (four dom3).Vacuum (runReg OSI.empty coreHistory) hole4 := by
  refine ⟨?_, names3.disjoint⟩
  intro s hs
  have hs : s < 3 := hs
  interval_cases s
  · left; exact ⟨by decide +kernel, by show ∀ x ∈ dom3 0, hole4 x = true; decide⟩
  · left; exact ⟨by decide +kernel, by show ∀ x ∈ dom3 1, hole4 x = true; decide⟩
  · right; exact ⟨by decide +kernel, by show ∀ x ∈ dom3 2, hole4 x = false; decide⟩

-- all hypotheses hold: with a core space the same product is contracted to more terms, of the same value
example : ∃ E E' e e', prog4.run (runReg OSI.empty Wick.srHistory) letters2 = .ok E ∧ prog4.run (runReg OSI.empty coreHistory) letters3 = .ok E' ∧
    Wick.contractExpr (runReg OSI.empty Wick.srHistory) {} (Rational.ofInt 1) E 0 4 = .ok e ∧ Wick.contractExpr (runReg OSI.empty coreHistory) {} (Rational.ofInt 1) E' 0 4 = .ok e' ∧
    e.length < e'.length ∧ Lin.eval ((four dom3).normalValue hole4) e' = Lin.eval ((four dom2).normalValue hole4) e := by
  obtain ⟨x, hx, h2⟩ := Wick.ok_of_check (x := prog4.run (runReg OSI.empty Wick.srHistory) letters2 >>= fun E => Wick.contractExpr (runReg OSI.empty Wick.srHistory) {} (Rational.ofInt 1) E 0 4 >>= fun e => pure (E, e))
    (fun q => decide (q.2.length ≤ 12)) (by decide +kernel)
  obtain ⟨E, hE, hx⟩ := bind_ok' hx
  obtain ⟨e, he, hx⟩ := bind_ok' hx
  cases hx
  obtain ⟨x', hx', h2'⟩ := Wick.ok_of_check (x := prog4.run (runReg OSI.empty coreHistory) letters3 >>= fun E => Wick.contractExpr (runReg OSI.empty coreHistory) {} (Rational.ofInt 1) E 0 4 >>= fun e => pure (E, e))
    (fun q => decide (12 < q.2.length)) (by decide +kernel)
  obtain ⟨E', hE', hx'⟩ := bind_ok' hx'
  obtain ⟨e', he', hx'⟩ := bind_ok' hx'
  cases hx'
  refine ⟨E, E', e, e', hE, hE', he, he', ?_, ?_⟩
  · have := of_decide_eq_true h2; have := of_decide_eq_true h2'; simp only at *; omega
  · exact C93_partition_partial Wick.srHistory coreHistory (by refine ⟨?_, ?_, trivial⟩ <;> decide +kernel) (by refine ⟨?_, ?_, ?_, trivial⟩ <;> decide +kernel) (by decide +kernel) (by decide +kernel)
      (v := four dom2) (v' := four dom3) rfl rfl names2 names3 (four_anti dom2) (fock_car hole4) vac2 vac3 (P := prog4) ⟨trivial, trivial⟩ (.of_rank (by decide)) (.of_rank (by decide)) (Rational.canon_ofInt 1) le_rfl (by decide) hE hE' he he'

-- the condition on the ranks also holds for the coupled-cluster equations with triple excitations, but not for a product of two three-body operators
example : (GenProg.bch (.plus (.gen "H".toList 1 0 0) (.gen "H".toList 2 0 0)) (.plus (.gen "T".toList 1 2 1) (.gen "T".toList 3 2 1)) 4).NoTriple letters3 ∧
    ¬ (GenProg.mul (.gen "H".toList 3 0 0) (.gen "T".toList 3 2 1)).NoTriple letters3 := by
  unfold GenProg.NoTriple
  decide
end Wicked
