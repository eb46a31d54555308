import Verif.Proofs.TermOrder
import Verif.Proofs.PermSign
import Verif.Proofs.Rational
import Mathlib.Data.Fintype.EquivFin
namespace Wicked

theorem length_enumFrom {α : Type _} (n : Int) (l : List α) : (enumFrom n l).length = l.length := by
  induction l generalizing n with
  | nil => rfl
  | cons a l ih => simp [enumFrom, ih]

theorem getElem_enumFrom {α : Type _} (n : Int) (l : List α) (i : Nat) (h : i < (enumFrom n l).length) :
    (enumFrom n l)[i] = (l[i]'(by rwa [length_enumFrom] at h), n + (i : Int)) := by
  induction l generalizing n i with
  | nil => simp [enumFrom] at h
  | cons a l ih =>
    cases i with
    | zero => simp [enumFrom]
    | succ i => simp only [enumFrom, List.getElem_cons_succ]; rw [ih]; simp; omega

theorem mem_enumFrom_zero {α : Type _} {l : List α} {p : α × Int} (h : p ∈ enumFrom 0 l) :
    ∃ (i : Nat) (hi : i < l.length), p.1 = l[i] ∧ p.2 = (i : Int) := by
  obtain ⟨i, hi, rfl⟩ := List.getElem_of_mem h
  rw [getElem_enumFrom]
  exact ⟨i, by rwa [length_enumFrom] at hi, rfl, by simp⟩

theorem enumFrom_snd_nodup {α : Type _} (n : Int) (l : List α) : ((enumFrom n l).map Prod.snd).Nodup :=
  (enumFrom_snd_sorted n l).imp (fun h => ne_of_lt h)

/-- a rearrangement of (entry, position) pairs is given by a permutation of the positions, and
`permutation_sign` of the positions is its sign -/
theorem enum_perm_spec {α : Type _} (l : List α) (L : List (α × Int)) (h : L.Perm (enumFrom 0 l)) :
    ∃ σ : Equiv.Perm (Fin l.length), L.map Prod.fst = List.ofFn (fun i => l[σ i]) ∧
      permutationSign (L.map Prod.snd) = (Equiv.Perm.sign σ : ℤ) := by
  have hlen : L.length = l.length := by rw [h.length_eq, length_enumFrom]
  have hmem : ∀ i : Fin l.length, ∃ j : Fin l.length, (L[i.val]'(by omega)) = (l[j], (j.val : Int)) := by
    intro i
    obtain ⟨j, hj, h1, h2⟩ := mem_enumFrom_zero (h.subset (List.getElem_mem (l := L) (n := i.val) (by omega)))
    exact ⟨⟨j, hj⟩, Prod.ext h1 h2⟩
  choose f hf using hmem
  have hnd : (L.map Prod.snd).Nodup := (h.map Prod.snd).nodup_iff.2 (enumFrom_snd_nodup 0 l)
  have hinj : Function.Injective f := by
    intro i j hij
    have h1 := hf i
    have h2 := hf j
    rw [hij] at h1
    have := (List.Nodup.getElem_inj_iff hnd (i := i.val) (j := j.val) (hi := by simp; omega) (hj := by simp; omega)).1
      (by simp [h1, h2])
    exact Fin.ext this
  let σ : Equiv.Perm (Fin l.length) := Equiv.ofBijective f (Finite.injective_iff_bijective.1 hinj)
  refine ⟨σ, ?_, ?_⟩
  · apply List.ext_getElem
    · simp [hlen]
    · intro i h1 h2
      simp only [List.getElem_map, List.getElem_ofFn]
      simp only [List.length_ofFn] at h2
      have := hf ⟨i, h2⟩
      simp only at this; rw [this]; rfl
  · rw [← permutationSign_perm σ]
    congr 1
    apply List.ext_getElem
    · simp [hlen]
    · intro i h1 h2
      simp only [List.getElem_map, List.getElem_ofFn]
      simp only [List.length_ofFn] at h2
      have := hf ⟨i, h2⟩
      simp only at this; rw [this]; rfl

/-- the list handed to the caller and the sign, for any sorted rearrangement of the pairs -/
theorem enum_perm_antisymm {α M : Type*} [AddCommGroup M] (l : List α) (L : List (α × Int))
    (h : L.Perm (enumFrom 0 l)) (f : List α → M) (hf : AntisymmFun f) :
    f l = permutationSign (L.map Prod.snd) • f (L.map Prod.fst) := by
  have := permSign_smul_perm h ((h.map Prod.snd).nodup_iff.2 (enumFrom_snd_nodup 0 l)) f hf
  rw [this, enumFrom_map_fst, permutationSign_of_sorted ((enumFrom_snd_sorted 0 l).imp le_of_lt), one_smul]

/-- sorting pairs sorts the first components -/
theorem sorted_fst {α : Type _} [CppLt α] [StrictWeak α] {L : List (α × Int)}
    (h : Sorted CppLt.lt L) : (L.map Prod.fst).Pairwise (fun a b => CppLt.lt b a = false) := by
  rw [List.pairwise_map]
  refine h.imp ?_
  intro a b hab
  simp only [pair_lt, Bool.or_eq_false_iff] at hab
  exact hab.1

theorem sorted_enumFrom {α : Type _} [CppLt α] [StrictWeak α] (n : Int) (l : List α)
    (h : l.Pairwise (fun a b => CppLt.lt b a = false)) : Sorted CppLt.lt (enumFrom n l) := by
  have h2 := enumFrom_snd_sorted n l
  rw [List.pairwise_map] at h2
  have h1 : (enumFrom n l).Pairwise (fun a b => CppLt.lt b.1 a.1 = false) := by
    rw [← List.pairwise_map (f := Prod.fst) (R := fun a b => CppLt.lt b a = false), enumFrom_map_fst]; exact h
  refine (h1.and h2).imp ?_
  rintro a b ⟨h1, h2⟩
  simp only [pair_lt, h1, Bool.false_or, Bool.and_eq_false_imp, Bool.not_eq_true']
  intro _
  show decide (b.2 < a.2) = false
  simp; omega

/-- an already sorted list is left alone with sign `+1` -/
theorem canon_of_sorted {α : Type _} [CppLt α] [StrictWeak α] (l : List α)
    (h : l.Pairwise (fun a b => CppLt.lt b a = false)) :
    (stdSort (enumFrom 0 l)).map Prod.fst = l ∧
      permutationSign ((stdSort (enumFrom 0 l)).map Prod.snd) = 1 := by
  rw [stdSort_of_sorted _ (sorted_enumFrom 0 l h), enumFrom_map_fst]
  exact ⟨rfl, permutationSign_of_sorted ((enumFrom_snd_sorted 0 l).imp le_of_lt)⟩

theorem canonicalizeIndices_eq (l : List Index) (r : Bool) :
    ∃ L : List (Index × Int), L.Perm (enumFrom 0 l) ∧
      canonicalizeIndices l r = (L.map Prod.fst, permutationSign (L.map Prod.snd)) := by
  cases r
  · exact ⟨_, stdSort_perm _, rfl⟩
  · exact ⟨_, stdSortRev_perm _, rfl⟩

theorem canonicalizeSqops_eq (l : List SQOp) (r : Bool) :
    ∃ L : List (SQOp × Int), L.Perm (enumFrom 0 l) ∧
      canonicalizeSqops l r = (L.map Prod.fst, permutationSign (L.map Prod.snd)) := by
  cases r
  · exact ⟨_, stdSort_perm _, rfl⟩
  · exact ⟨_, stdSortRev_perm _, rfl⟩

end Wicked
