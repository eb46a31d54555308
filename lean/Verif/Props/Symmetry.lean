import Verif.Model.Symmetry
import Verif.Spec.Symmetry
import Verif.Spec.SummedCCR
import Verif.Proofs.CanonForm
import Verif.Proofs.Combinatorics
import Mathlib.GroupTheory.Perm.DomMulAct
/-! # C87: symmetry factors -/
namespace Wicked
open Equiv

theorem spacePerms_prod {n : Nat} {l : List Index} (h : ∀ i ∈ l, 0 ≤ i.space ∧ i.space.toNat < n) :
    spacePerms l = ∏ s ∈ Finset.range n, (l.countP (fun i => decide (i.space = (s : Int)))).factorial := by
  have hlt : ∀ k : Fin l.length, (l.get k).space.toNat < n := fun k => (h _ (List.get_mem l k)).2
  have hnn : ∀ k : Fin l.length, 0 ≤ (l.get k).space := fun k => (h _ (List.get_mem l k)).1
  let f : Fin l.length → Fin n := fun k => ⟨(l.get k).space.toNat, hlt k⟩
  have e1 : spacePerms l = Fintype.card {g : Perm (Fin l.length) // f ∘ g = f} := by
    unfold spacePerms
    apply Fintype.card_congr
    apply Equiv.subtypeEquivRight
    intro σ
    constructor
    · intro hs
      funext k
      show (⟨_, _⟩ : Fin n) = ⟨_, _⟩
      rw [Fin.mk.injEq, hs k]
    · intro hs k
      have := congrFun hs k
      have : (l.get (σ k)).space.toNat = (l.get k).space.toNat := Fin.mk.inj_iff.1 this
      have h1 := hnn (σ k)
      have h2 := hnn k
      omega
  rw [e1, DomMulAct.stabilizer_card, Finset.prod_range]
  apply Finset.prod_congr rfl
  intro s _
  congr 1
  rw [Fintype.card_subtype]
  have : ∀ (l : List Index) (p : Index → Bool), (Finset.univ.filter (fun k : Fin l.length => p (l.get k) = true)).card = l.countP p := by
    intro l p
    rw [List.countP_eq_length_filter]
    conv_rhs => rw [← List.ofFn_get l]
    rw [← List.countP_eq_length_filter, List.ofFn_eq_map, List.countP_map, List.countP_eq_length_filter, ← List.toFinset_card_of_nodup (List.Nodup.filter _ (List.nodup_finRange _))]
    congr 1
    ext k
    simp
  rw [← this]
  congr 1
  ext k
  simp only [Finset.mem_filter, Finset.mem_univ, true_and, decide_eq_true_eq]
  have h1 := hnn k
  constructor
  · intro hf
    have : (l.get k).space.toNat = (s : Nat) := congrArg Fin.val hf
    omega
  · intro hf
    apply Fin.ext
    show (l.get k).space.toNat = (s : Nat)
    omega

theorem symmetry_fold (c : List Nat) : ∀ r : Nat, 0 < r → r * (c.map Nat.factorial).prod ≤ 2147483647 →
    (c.map (fun n : Nat => (n : Int))).foldlM (fun r n => do
      let f ← factorialM n
      let p ← chk64 (r * f)
      return Int.bmod p (2 ^ 32)) (r : Int) = (.ok ((r * (c.map Nat.factorial).prod : Nat) : Int) : Res Int) := by
  induction c with
  | nil => intro r _ _; simp; rfl
  | cons n c ih =>
    intro r hr h
    rw [List.map_cons, List.prod_cons] at h
    have hpos : 0 < (c.map Nat.factorial).prod := List.prod_pos (by
      intro x hx
      obtain ⟨y, _, rfl⟩ := List.mem_map.1 hx
      exact Nat.factorial_pos y)
    have h1 : r * n.factorial ≤ 2147483647 := by
      refine le_trans ?_ h
      rw [← mul_assoc]
      exact Nat.le_mul_of_pos_right _ hpos
    have h2 : n.factorial ≤ 2147483647 := le_trans (Nat.le_mul_of_pos_left _ hr) h1
    rw [List.map_cons, List.foldlM_cons, factorialM_ok n (by exact_mod_cast le_trans h2 (by norm_num))]
    have h3 : chk64 ((r : Int) * (n.factorial : Int)) = .ok ((r * n.factorial : Nat) : Int) := by
      unfold chk64
      have h0 : (0 : Int) ≤ (r : Int) * (n.factorial : Int) := by positivity
      have h0' : (r : Int) * (n.factorial : Int) ≤ 2147483647 := by exact_mod_cast h1
      rw [if_pos ⟨by omega, by omega⟩]
      push_cast; rfl
    have h4 : Int.bmod ((r * n.factorial : Nat) : Int) (2 ^ 32) = ((r * n.factorial : Nat) : Int) := by
      generalize r * n.factorial = z at h1
      apply Int.bmod_eq_of_le <;> omega
    simp only [bind, Except.bind, h3, pure, Except.pure, h4]
    have := ih (r * n.factorial) (Nat.mul_pos hr (Nat.factorial_pos n)) (by rw [mul_assoc]; exact h)
    simp only [bind, Except.bind, pure, Except.pure] at this
    rw [this, List.map_cons, List.prod_cons, mul_assoc]

theorem symmetryFactor_ok {o : OSI} {l : List Index} (h : ∀ i ∈ l, RegisteredSpace o i.space) (hfit : spacePerms l ≤ 2147483647) :
    indexSymmetryFactor o l = .ok (spacePerms l : Int) := by
  obtain ⟨c, hc⟩ := foldIncr_ok Index.space l (List.replicate o.spaces.length 0) (by
    intro i hi
    rw [List.length_replicate]
    exact h i hi)
  have hc' : numIndicesPerSpace o l = .ok c := hc
  obtain ⟨h1, _⟩ := numIndices_list hc'
  have h2 : c = ((List.range o.spaces.length).map (fun s : Nat => l.countP (fun i => decide (i.space = (s : Int))))).map (fun n : Nat => (n : Int)) := by
    rw [h1, countList, List.map_map]
    apply List.map_congr_left
    intro s _
    show ((Multiset.count (s : Int) _ : Nat) : Int) = _
    rw [Multiset.map_coe, Multiset.coe_count, List.count, List.countP_map]
    rfl
  have h3 := spacePerms_prod h
  have h4 : ((List.range o.spaces.length).map (fun s : Nat => l.countP (fun i => decide (i.space = (s : Int))))).map Nat.factorial = (List.range o.spaces.length).map (fun s : Nat => (l.countP (fun i => decide (i.space = (s : Int)))).factorial) := by
    rw [List.map_map]; rfl
  have h5 : (((List.range o.spaces.length).map (fun s : Nat => l.countP (fun i => decide (i.space = (s : Int))))).map Nat.factorial).prod = spacePerms l := by
    rw [h4, h3]
    rfl
  unfold indexSymmetryFactor
  rw [hc']
  simp only [bind, Except.bind]
  rw [h2]
  have := symmetry_fold ((List.range o.spaces.length).map (fun s : Nat => l.countP (fun i => decide (i.space = (s : Int))))) 1 (by norm_num) (by rw [one_mul, h5]; exact hfit)
  rw [one_mul, h5] at this
  exact this

theorem spacePerms_pos (l : List Index) : 0 < spacePerms l := by
  unfold spacePerms
  rw [Fintype.card_pos_iff]
  exact ⟨⟨1, fun k => rfl⟩⟩

/-- **C87.** For every tensor all of whose indices belong to registered spaces: if the number of ways to rearrange the upper indices within their spaces times that for the lower indices fits into an `int`, then
`symmetry_factor` returns this number, that is the number of pairs of such rearrangements (so the order of the indices, the label and the symmetry of the tensor play no role). -/
theorem C87_symmetry_factor_partial {o : OSI} {t : Tensor} (h : ∀ i ∈ t.upper ++ t.lower, RegisteredSpace o i.space) (hfit : spacePerms t.upper * spacePerms t.lower ≤ 2147483647) :
    t.symmetryFactor o = .ok ((spacePerms t.upper * spacePerms t.lower : Nat) : Int) := by
  have hu : spacePerms t.upper ≤ 2147483647 := le_trans (Nat.le_mul_of_pos_right _ (spacePerms_pos _)) hfit
  have hl : spacePerms t.lower ≤ 2147483647 := le_trans (Nat.le_mul_of_pos_left _ (spacePerms_pos _)) hfit
  unfold Tensor.symmetryFactor
  rw [symmetryFactor_ok (fun i hi => h i (List.mem_append_left _ hi)) hu, symmetryFactor_ok (fun i hi => h i (List.mem_append_right _ hi)) hl]
  simp only [bind, Except.bind]
  rw [if_pos]
  · push_cast; rfl
  · constructor
    · have : (0 : Int) ≤ (spacePerms t.upper : Int) * (spacePerms t.lower : Int) := by positivity
      omega
    · exact_mod_cast hfit

/-- **C87**, the bound: with thirteen indices of one space on one level the returned number is not the number of rearrangements but its lowest 32 bits. -/
theorem C87_wraps : ∃ (o : OSI) (t : Tensor), (∀ i ∈ t.upper ++ t.lower, RegisteredSpace o i.space) ∧ t.upper.length = 13 ∧ t.lower = [] ∧
    t.symmetryFactor o = .ok 1932053504 ∧ spacePerms t.upper * spacePerms t.lower = 6227020800 := by
  refine ⟨⟨[⟨'o', .fermion, .occupied, [], []⟩], [], []⟩, ⟨['t'], [], (List.range 13).map (fun k => ⟨0, k⟩), .antisymmetric, false⟩, ?_, rfl, rfl, by decide +kernel, ?_⟩
  · unfold RegisteredSpace; decide
  · rw [spacePerms_prod (n := 1) (by decide), spacePerms_prod (n := 1) (by decide), Finset.prod_range_one, Finset.prod_range_one]
    decide +kernel

-- a doubles amplitude with two occupied and two virtual indices: 4 rearrangements; with mixed spaces fewer
example : let o : OSI := ⟨[⟨'o', .fermion, .occupied, [], []⟩, ⟨'v', .fermion, .unoccupied, [], []⟩], [], []⟩
    let t : Tensor := ⟨['t'], [⟨0, 0⟩, ⟨0, 1⟩], [⟨1, 0⟩, ⟨1, 1⟩, ⟨0, 2⟩], .antisymmetric, false⟩
    (∀ i ∈ t.upper ++ t.lower, RegisteredSpace o i.space) ∧ spacePerms t.upper * spacePerms t.lower = 4 ∧ t.symmetryFactor o = .ok 4 := by
  refine ⟨by unfold RegisteredSpace; decide, ?_, by decide +kernel⟩
  rw [spacePerms_prod (n := 2) (by decide), spacePerms_prod (n := 2) (by decide)]
  decide +kernel

end Wicked
