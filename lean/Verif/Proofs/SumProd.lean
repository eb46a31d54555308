import Verif.Spec.NormalProduct
import Verif.Proofs.WickVal
/-! Sums over the orbitals of the operators of a product factorise -/
namespace Wicked
section
variable {ι Ω A : Type} [DecidableEq ι] [Inhabited Ω] [Ring A]

theorem sumOver_mul (S S' : Finset ι) (hd : Disjoint S S') (d : ι → Finset Ω) (F G : (ι → Ω) → A)
    (hF : ∀ x y, (∀ i ∈ S, x i = y i) → F x = F y) (hG : ∀ x y, (∀ i ∈ S', x i = y i) → G x = G y) :
    sumOver (S ∪ S') d (fun x => F x * G x) = sumOver S d F * sumOver S' d G := by
  unfold sumOver
  rw [Finset.sum_mul_sum, ← Finset.sum_product']
  refine Finset.sum_bij' (fun σ _ => (fun i => σ ⟨i.1, Finset.mem_union_left _ i.2⟩, fun i => σ ⟨i.1, Finset.mem_union_right _ i.2⟩))
    (fun p _ => fun i => if h : i.1 ∈ S then p.1 ⟨i.1, h⟩ else p.2 ⟨i.1, (Finset.mem_union.1 i.2).resolve_left h⟩) ?_ ?_ ?_ ?_ ?_
  · intro σ hσ
    rw [Fintype.mem_piFinset] at hσ
    rw [Finset.mem_product, Fintype.mem_piFinset, Fintype.mem_piFinset]
    exact ⟨fun i => hσ _, fun i => hσ _⟩
  · intro p hp
    rw [Finset.mem_product, Fintype.mem_piFinset, Fintype.mem_piFinset] at hp
    rw [Fintype.mem_piFinset]
    intro i
    beta_reduce
    split
    · exact hp.1 _
    · exact hp.2 _
  · intro σ _
    funext i
    beta_reduce
    split <;> rfl
  · intro p _
    apply Prod.ext
    · funext i
      exact dif_pos i.2
    · funext i
      exact dif_neg (fun h => Finset.disjoint_left.1 hd h i.2)
  · intro σ _
    dsimp only
    congr 1
    · apply hF
      intro i hi
      rw [dif_pos hi, dif_pos (Finset.mem_union_left _ hi)]
    · apply hG
      intro i hi
      rw [dif_pos hi, dif_pos (Finset.mem_union_right _ hi)]

theorem sumOver_empty (d : ι → Finset Ω) (F : (ι → Ω) → A) : sumOver ∅ d F = F (fun _ => default) := by
  unfold sumOver
  rw [show (Fintype.piFinset (fun i : {i // i ∈ (∅ : Finset ι)} => d i.1)) = {fun i => absurd i.2 (Finset.notMem_empty _)} from ?_]
  · rw [Finset.sum_singleton]
    congr 1
  · ext σ
    rw [Fintype.mem_piFinset, Finset.mem_singleton]
    constructor
    · intro _; funext i; exact absurd i.2 (Finset.notMem_empty _)
    · intro _ i; exact absurd i.2 (Finset.notMem_empty _)
end

section
variable {Ω R B : Type} [Inhabited Ω] [CommRing R] [Ring B] [Algebra R B]

/-- the second-quantized operators of the factors of a product -/
def segs (ns : Nat) : Nat → OperatorProduct → List (List Slot)
  | _, [] => []
  | k, p :: ops => opSlots ns k p :: segs ns (k + 1) ops

theorem segs_flatten (ns : Nat) (ops : OperatorProduct) : ∀ k, (segs ns k ops).flatten = slotsFrom ns k ops := by
  induction ops with
  | nil => intro k; rfl
  | cons p ops ih => intro k; rw [segs, List.flatten_cons, ih, slotsFrom]

/-- tensor element of factor number `k` -/
def elemAt (v : OrbSystem Ω R B) (ns k : Nat) (p : Operator) (x : Slot → Ω) : R :=
  v.T p.label ((creSlots ns k p).map x) ((annSlots ns k p).map x)

def elemsFrom (v : OrbSystem Ω R B) (ns : Nat) : Nat → OperatorProduct → (Slot → Ω) → R
  | _, [], _ => 1
  | k, p :: ops, x => elemAt v ns k p x * elemsFrom v ns (k + 1) ops x

theorem opElements_eq (v : OrbSystem Ω R B) (ns : Nat) (ops : OperatorProduct) (x : Slot → Ω) :
    opElements v ns ops x = elemsFrom v ns 0 ops x := by
  have key : ∀ (ops : OperatorProduct) (k : Nat), ((List.range ops.length).map (fun A =>
      v.T (opAt ops A).label ((creSlots ns (k + A) (opAt ops A)).map x) ((annSlots ns (k + A) (opAt ops A)).map x))).prod = elemsFrom v ns k ops x := by
    intro ops
    induction ops with
    | nil => intro k; rfl
    | cons p ops ih =>
      intro k
      rw [List.length_cons, List.range_succ_eq_map, List.map_cons, List.prod_cons, List.map_map, elemsFrom, ← ih (k + 1)]
      congr 1
      congr 1
      apply List.map_congr_left
      intro A _
      simp only [Function.comp, Nat.succ_eq_add_one, Nat.add_assoc, Nat.add_comm 1 A]
      rfl
  have := key ops 0
  simp only [Nat.zero_add] at this
  exact this

theorem slot_shift (ns k : Nat) (p : Operator) : opSlots ns k p = (opSlots ns 0 p).map (fun y => { y with op := k }) ∧
    creSlots ns k p = (creSlots ns 0 p).map (fun y => { y with op := k }) ∧ annSlots ns k p = (annSlots ns 0 p).map (fun y => { y with op := k }) := by
  have h1 : creSlots ns k p = (creSlots ns 0 p).map (fun y => { y with op := k }) := by
    unfold creSlots; rw [List.map_flatMap]; simp only [List.map_map]; rfl
  have h2 : annSlots ns k p = (annSlots ns 0 p).map (fun y => { y with op := k }) := by
    unfold annSlots; rw [List.map_flatMap]; simp only [List.map_map]; rfl
  refine ⟨?_, h1, h2⟩
  unfold opSlots
  rw [h1, h2, List.map_append, List.map_reverse]

/-- the sum over the orbitals of one operator, for any normal product `N` -/
def opSum (v : OrbSystem Ω R B) (N : List (SQType × Ω) → B) (ns k : Nat) (p : Operator) : B :=
  sumOver (opSlots ns k p).toFinset (fun y => v.dom y.space) (fun x =>
      elemAt v ns k p x • N ((opSlots ns k p).map (fun y => (y.type, x y))))

theorem opSum_shift (v : OrbSystem Ω R B) (N : List (SQType × Ω) → B) (ns k : Nat) (p : Operator) :
    opSum v N ns k p = opSum v N ns 0 p := by
  unfold opSum
  obtain ⟨h1, h2, h3⟩ := slot_shift ns k p
  have h0 : ∀ y ∈ opSlots ns 0 p, y.op = 0 := fun y hy => (mem_opSlots.1 hy).1
  rw [← sumOver_bij (opSlots ns 0 p).toFinset (opSlots ns k p).toFinset (fun y => v.dom y.space) (fun y => v.dom y.space) (fun y => { y with op := k })]
  · apply sumOver_congr
    intro x _
    unfold elemAt
    rw [h1, h2, h3, List.map_map, List.map_map, List.map_map]
    rfl
  · intro i hi
    rw [List.mem_toFinset] at hi ⊢
    rw [h1]; exact List.mem_map_of_mem hi
  · intro i hi j hj he
    have e1 := h0 i (List.mem_toFinset.1 hi)
    have e2 := h0 j (List.mem_toFinset.1 hj)
    cases i; cases j
    simp only [Slot.mk.injEq] at he e1 e2 ⊢
    subst e1; subst e2
    exact ⟨rfl, he.2⟩
  · intro y hy
    rw [List.mem_toFinset, h1] at hy
    obtain ⟨i, hi, rfl⟩ := List.mem_map.1 hy
    exact ⟨i, List.mem_toFinset.2 hi, rfl⟩
  · intro i _; rfl
  · intro x y hxy
    have hm : ∀ i ∈ opSlots ns 0 p, x i = y i := fun i hi => hxy i (List.mem_toFinset.2 hi)
    unfold elemAt
    have hm' : ∀ i ∈ creSlots ns 0 p, x i = y i := fun i hi => hm i (List.mem_append_left _ hi)
    have hm'' : ∀ i ∈ annSlots ns 0 p, x i = y i := fun i hi => hm i (List.mem_append_right _ (List.mem_reverse.2 hi))
    rw [List.map_congr_left hm', List.map_congr_left hm'',
      List.map_congr_left (fun i hi => by rw [hm i hi] : ∀ i ∈ opSlots ns 0 p, (i.type, x i) = (i.type, y i))]

/-- the sum over all orbitals of the product of the values of the factors is the product of the sums -/
theorem sum_factors (v : OrbSystem Ω R B) (N : List (SQType × Ω) → B) (ns : Nat) (ops : OperatorProduct) : ∀ k,
    sumOver (slotsFrom ns k ops).toFinset (fun y => v.dom y.space) (fun x =>
      elemsFrom v ns k ops x • ((segs ns k ops).map (fun l => N (l.map (fun y => (y.type, x y))))).prod) =
      (ops.map (opSum v N ns 0)).prod := by
  induction ops with
  | nil =>
    intro k
    simp only [slotsFrom, List.toFinset_nil, elemsFrom, segs, List.map_nil, List.prod_nil, one_smul]
    exact sumOver_empty _ _
  | cons p ops ih =>
    intro k
    rw [List.map_cons, List.prod_cons, ← ih (k + 1), ← opSum_shift v N ns k p]
    unfold opSum
    rw [slotsFrom, List.toFinset_append, ← sumOver_mul]
    · apply sumOver_congr
      intro x _
      rw [elemsFrom, segs, List.map_cons, List.prod_cons, smul_mul_smul_comm]
    · rw [Finset.disjoint_left]
      intro y hy hy'
      have h1 := (mem_opSlots.1 (List.mem_toFinset.1 hy)).1
      have h2 := slotsFrom_op (List.mem_toFinset.1 hy')
      omega
    · intro x y hxy
      have hm : ∀ i ∈ opSlots ns k p, x i = y i := fun i hi => hxy i (List.mem_toFinset.2 hi)
      unfold elemAt
      have hm' : ∀ i ∈ creSlots ns k p, x i = y i := fun i hi => hm i (List.mem_append_left _ hi)
      have hm'' : ∀ i ∈ annSlots ns k p, x i = y i := fun i hi => hm i (List.mem_append_right _ (List.mem_reverse.2 hi))
      rw [List.map_congr_left hm', List.map_congr_left hm'',
        List.map_congr_left (fun i hi => by rw [hm i hi] : ∀ i ∈ opSlots ns k p, (i.type, x i) = (i.type, y i))]
    · intro x y hxy
      have key : ∀ (ops : OperatorProduct) (k : Nat), (∀ i ∈ slotsFrom ns k ops, x i = y i) →
          elemsFrom v ns k ops x • ((segs ns k ops).map (fun l => N (l.map (fun y => (y.type, x y))))).prod =
          elemsFrom v ns k ops y • ((segs ns k ops).map (fun l => N (l.map (fun i => (i.type, y i))))).prod := by
        intro ops k h
        congr 1
        · induction ops generalizing k with
          | nil => rfl
          | cons q ops ih2 =>
            have hm : ∀ i ∈ opSlots ns k q, x i = y i := fun i hi => h i (List.mem_append_left _ hi)
            have hm' : ∀ i ∈ creSlots ns k q, x i = y i := fun i hi => hm i (List.mem_append_left _ hi)
            have hm'' : ∀ i ∈ annSlots ns k q, x i = y i := fun i hi => hm i (List.mem_append_right _ (List.mem_reverse.2 hi))
            rw [elemsFrom, elemsFrom, ih2 (k + 1) (fun i hi => h i (List.mem_append_right _ hi))]
            unfold elemAt
            rw [List.map_congr_left hm', List.map_congr_left hm'']
        · congr 1
          apply List.map_congr_left
          intro l hl
          congr 1
          apply List.map_congr_left
          intro i hi
          rw [h i (by rw [← segs_flatten]; exact List.mem_flatten.2 ⟨l, hl, hi⟩)]
      exact key ops (k + 1) (fun i hi => hxy i (List.mem_toFinset.2 hi))
end
end Wicked
