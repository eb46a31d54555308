import Verif.Spec.Amplitudes
import Mathlib.Tactic.Ring
import Mathlib.Tactic.FieldSimp
import Mathlib.Algebra.BigOperators.Group.List.Basic
import Mathlib.Algebra.Field.Rat
/-! # C83: the inverse denominators and the update of the amplitudes -/
namespace Wicked

section
variable {S : Type} [Field S]

private theorem npShape_one (s t : List Nat) (n : Nat) : npShape (1 :: s) (n :: t) = (npShape s t).map (n :: ·) := by
  conv => lhs; unfold npShape
  by_cases h : 1 = n
  · subst h; simp
  · simp [h]

private theorem npShape_nil (s : List Nat) : npShape s [] = some s := by cases s <;> rfl
private theorem npShape_nil' (s : List Nat) : npShape [] s = some s := rfl

private theorem proj0 {n i : Nat} (h : i < n) : (if n = 1 then 0 else i) = i := by split <;> omega

private theorem denominator1_eq (fo fv : NdArray S) (no nv : Nat) (ho : fo.shape = [no]) (hv : fv.shape = [nv]) :
    ∃ X, denominator1 fo fv = .ok X ∧ X.shape = [no, nv] ∧ ∀ i a, i < no → a < nv → X.elem [i, a] = fo.elem [i] - fv.elem [a] := by
  refine ⟨_, by
    simp only [denominator1, npZip, npColumn, ho, hv, List.replicate, List.reverse_cons, List.reverse_nil, List.nil_append, List.cons_append, List.headD_cons,
      npShape_one, npShape_nil, Option.map_some]
    rfl, by simp, ?_⟩
  intro i a hi ha
  simp [npProject, proj0 hi, proj0 ha]

private theorem denominator2_eq (fo fv : NdArray S) (no nv : Nat) (ho : fo.shape = [no]) (hv : fv.shape = [nv]) :
    ∃ X, denominator2 fo fv = .ok X ∧ X.shape = [no, no, nv, nv] ∧ ∀ i j a b, i < no → j < no → a < nv → b < nv →
      X.elem [i, j, a, b] = fo.elem [i] + fo.elem [j] - fv.elem [a] - fv.elem [b] := by
  refine ⟨_, by
    simp only [denominator2, npZip, npColumn, ho, hv, List.replicate, List.reverse_cons, List.reverse_nil, List.nil_append, List.cons_append, List.headD_cons,
      npShape_one, npShape_nil, Option.map_some, bind, Except.bind, pure, Except.pure]
    rfl, by simp, ?_⟩
  intro i j a b hi hj ha hb
  simp [npProject, proj0 hi, proj0 hj, proj0 ha, proj0 hb]

private theorem denominator3_eq (fo fv : NdArray S) (no nv : Nat) (ho : fo.shape = [no]) (hv : fv.shape = [nv]) :
    ∃ X, denominator3 fo fv = .ok X ∧ X.shape = [no, no, no, nv, nv, nv] ∧ ∀ i j k a b c, i < no → j < no → k < no → a < nv → b < nv → c < nv →
      X.elem [i, j, k, a, b, c] = fo.elem [i] + fo.elem [j] + fo.elem [k] - fv.elem [a] - fv.elem [b] - fv.elem [c] := by
  refine ⟨_, by
    simp only [denominator3, npZip, npColumn, ho, hv, List.replicate, List.reverse_cons, List.reverse_nil, List.nil_append, List.cons_append, List.headD_cons,
      npShape_one, npShape_nil, Option.map_some, bind, Except.bind, pure, Except.pure]
    rfl, by simp, ?_⟩
  intro i j k a b c hi hj hk ha hb hc
  simp [npProject, proj0 hi, proj0 hj, proj0 hk, proj0 ha, proj0 hb, proj0 hc]

private theorem within1 {n : Nat} {I : List Nat} (h : Within (List.replicate 1 n) I) : ∃ i, I = [i] ∧ i < n := by
  simp only [Within, List.replicate, List.forall₂_cons_right_iff, List.forall₂_nil_right_iff] at h
  obtain ⟨i, _, hi, rfl, rfl⟩ := h
  exact ⟨i, rfl, hi⟩
private theorem within2 {n : Nat} {I : List Nat} (h : Within (List.replicate 2 n) I) : ∃ i j, I = [i, j] ∧ i < n ∧ j < n := by
  simp only [Within, List.replicate, List.forall₂_cons_right_iff, List.forall₂_nil_right_iff] at h
  obtain ⟨i, _, hi, ⟨j, _, hj, rfl, rfl⟩, rfl⟩ := h
  exact ⟨i, j, rfl, hi, hj⟩
private theorem within3 {n : Nat} {I : List Nat} (h : Within (List.replicate 3 n) I) : ∃ i j k, I = [i, j, k] ∧ i < n ∧ j < n ∧ k < n := by
  simp only [Within, List.replicate, List.forall₂_cons_right_iff, List.forall₂_nil_right_iff] at h
  obtain ⟨i, _, hi, ⟨j, _, hj, ⟨k, _, hk, rfl, rfl⟩, rfl⟩, rfl⟩ := h
  exact ⟨i, j, k, rfl, hi, hj, hk⟩

private theorem diag_eq {X : NdArray S} {n : Nat} (h : X.shape = [n, n]) : npDiag X = .ok ⟨[n], fun idx => X.elem [idx.headD 0, idx.headD 0]⟩ := by
  simp [npDiag, h]; rfl

private theorem getArray_ok {D : List (Str × NdArray S)} {key X} (h : HasArray D key X) : getArray D key = .ok X := by
  simp only [HasArray] at h
  simp [getArray, h]; rfl

private theorem inv1 (oo vv : NdArray S) (no nv : Nat) : ∃ X, denominator1 ⟨[no], fun idx => oo.elem [idx.headD 0, idx.headD 0]⟩
    ⟨[nv], fun idx => vv.elem [idx.headD 0, idx.headD 0]⟩ = .ok X ∧ IsInverseDenominator 1 no nv oo vv (npInv X) := by
  obtain ⟨X, hX, hs, he⟩ := denominator1_eq (⟨[no], fun idx => oo.elem [idx.headD 0, idx.headD 0]⟩ : NdArray S)
    ⟨[nv], fun idx => vv.elem [idx.headD 0, idx.headD 0]⟩ no nv rfl rfl
  refine ⟨X, hX, by simpa [npInv] using hs, ?_⟩
  intro I A hI hA
  obtain ⟨i, rfl, hi⟩ := within1 hI
  obtain ⟨a, rfl, ha⟩ := within1 hA
  simp [npInv, he i a hi ha]
private theorem inv2 (oo vv : NdArray S) (no nv : Nat) : ∃ X, denominator2 ⟨[no], fun idx => oo.elem [idx.headD 0, idx.headD 0]⟩
    ⟨[nv], fun idx => vv.elem [idx.headD 0, idx.headD 0]⟩ = .ok X ∧ IsInverseDenominator 2 no nv oo vv (npInv X) := by
  obtain ⟨X, hX, hs, he⟩ := denominator2_eq (⟨[no], fun idx => oo.elem [idx.headD 0, idx.headD 0]⟩ : NdArray S)
    ⟨[nv], fun idx => vv.elem [idx.headD 0, idx.headD 0]⟩ no nv rfl rfl
  refine ⟨X, hX, by simpa [npInv] using hs, ?_⟩
  intro I A hI hA
  obtain ⟨i, j, rfl, hi, hj⟩ := within2 hI
  obtain ⟨a, b, rfl, ha, hb⟩ := within2 hA
  simp only [npInv, List.cons_append, List.nil_append, he i j a b hi hj ha hb]
  congr 1
  simp; ring
private theorem inv3 (oo vv : NdArray S) (no nv : Nat) : ∃ X, denominator3 ⟨[no], fun idx => oo.elem [idx.headD 0, idx.headD 0]⟩
    ⟨[nv], fun idx => vv.elem [idx.headD 0, idx.headD 0]⟩ = .ok X ∧ IsInverseDenominator 3 no nv oo vv (npInv X) := by
  obtain ⟨X, hX, hs, he⟩ := denominator3_eq (⟨[no], fun idx => oo.elem [idx.headD 0, idx.headD 0]⟩ : NdArray S)
    ⟨[nv], fun idx => vv.elem [idx.headD 0, idx.headD 0]⟩ no nv rfl rfl
  refine ⟨X, hX, by simpa [npInv] using hs, ?_⟩
  intro I A hI hA
  obtain ⟨i, j, k, rfl, hi, hj, hk⟩ := within3 hI
  obtain ⟨a, b, c, rfl, ha, hb, hc⟩ := within3 hA
  simp only [npInv, List.cons_append, List.nil_append, he i j k a b c hi hj hk ha hb hc]
  congr 1
  simp; ring

/-- **C83** with the square blocks `H["oo"]` and `H["vv"]`, `compute_inverse_denominators` returns for `rank ≤ 3` a dictionary with, for every `1 ≤ n ≤ rank`, the array of the
`n`-fold excitations: its elements are `1 / (Σ H_oo[i,i] − Σ H_vv[a,a])` -/
theorem C83_denominators (H : List (Str × NdArray S)) (oo vv : NdArray S) (no nv : Nat) (hoo : HasArray H "oo".toList oo) (hvv : HasArray H "vv".toList vv)
    (hno : oo.shape = [no, no]) (hnv : vv.shape = [nv, nv]) (rank : Int) (hr : rank ≤ 3) :
    ∃ D, inverseDenominators H rank = .ok D ∧ ∀ n : Nat, 1 ≤ n → (n : Int) ≤ rank → ∃ X, HasArray D (ampKey n 0) X ∧ IsInverseDenominator n no nv oo vv X := by
  obtain ⟨X1, h1, i1⟩ := inv1 oo vv no nv
  obtain ⟨X2, h2, i2⟩ := inv2 oo vv no nv
  obtain ⟨X3, h3, i3⟩ := inv3 oo vv no nv
  have key1 : ampKey 1 0 = "ov".toList := by decide
  have key2 : ampKey 2 0 = "oovv".toList := by decide
  have key3 : ampKey 3 0 = "ooovvv".toList := by decide
  simp only [inverseDenominators, getArray_ok hoo, getArray_ok hvv, diag_eq hno, diag_eq hnv, bind, Except.bind, h1, h2, h3, pure, Except.pure]
  have n3 : ¬ rank > 3 := by omega
  rcases (by omega : rank ≤ 0 ∨ rank = 1 ∨ rank = 2 ∨ rank = 3) with h | rfl | rfl | rfl
  · have a1 : ¬ rank ≥ 1 := by omega
    have a2 : ¬ rank ≥ 2 := by omega
    have a3 : ¬ rank ≥ 3 := by omega
    simp only [a1, a2, a3, n3, if_false]
    exact ⟨_, rfl, fun n h1 h2 => by omega⟩
  · refine ⟨_, by simp; rfl, fun n h1 h2 => ?_⟩
    obtain rfl : n = 1 := by omega
    exact ⟨_, by rw [key1]; rfl, i1⟩
  · refine ⟨_, by simp; rfl, fun n h1 h2 => ?_⟩
    rcases (by omega : n = 1 ∨ n = 2) with rfl | rfl
    · exact ⟨_, by rw [key1]; rfl, i1⟩
    · exact ⟨_, by rw [key2]; rfl, i2⟩
  · refine ⟨_, by simp; rfl, fun n h1 h2 => ?_⟩
    rcases (by omega : n = 1 ∨ n = 2 ∨ n = 3) with rfl | rfl | rfl
    · exact ⟨_, by rw [key1]; rfl, i1⟩
    · exact ⟨_, by rw [key2]; rfl, i2⟩
    · exact ⟨_, by rw [key3]; rfl, i3⟩

/-- **C83** the same for the spin-integrated version: every split `k + l` of the excitation rank into spin-up and spin-down excitations gets the denominators of the `k + l`-fold
excitations -/
theorem C83_denominators_spin (H : List (Str × NdArray S)) (oo vv : NdArray S) (no nv : Nat) (hoo : HasArray H "oo".toList oo) (hvv : HasArray H "vv".toList vv)
    (hno : oo.shape = [no, no]) (hnv : vv.shape = [nv, nv]) (rank : Int) (hr : rank ≤ 3) :
    ∃ D, inverseDenominatorsSpin H rank = .ok D ∧ ∀ k l : Nat, 1 ≤ k + l → ((k + l : Nat) : Int) ≤ rank →
      ∃ X, HasArray D (ampKey k l) X ∧ IsInverseDenominator (k + l) no nv oo vv X := by
  obtain ⟨X1, h1, i1⟩ := inv1 oo vv no nv
  obtain ⟨X2, h2, i2⟩ := inv2 oo vv no nv
  obtain ⟨X3, h3, i3⟩ := inv3 oo vv no nv
  simp only [inverseDenominatorsSpin, getArray_ok hoo, getArray_ok hvv, diag_eq hno, diag_eq hnv, bind, Except.bind, h1, h2, h3, pure, Except.pure]
  have n3 : ¬ rank > 3 := by omega
  rcases (by omega : rank ≤ 0 ∨ rank = 1 ∨ rank = 2 ∨ rank = 3) with h | rfl | rfl | rfl
  · have a1 : ¬ rank ≥ 1 := by omega
    have a2 : ¬ rank ≥ 2 := by omega
    have a3 : ¬ rank ≥ 3 := by omega
    simp only [a1, a2, a3, n3, if_false]
    exact ⟨_, rfl, fun k l h1 h2 => by omega⟩
  · refine ⟨_, by simp; rfl, fun k l h1 h2 => ?_⟩
    rcases (by omega : k = 0 ∧ l = 1 ∨ k = 1 ∧ l = 0) with ⟨rfl, rfl⟩ | ⟨rfl, rfl⟩ <;> exact ⟨_, by simp [HasArray, setArray, ampKey, List.replicate], i1⟩
  · refine ⟨_, by simp; rfl, fun k l h1 h2 => ?_⟩
    rcases (by omega : k = 0 ∧ l = 1 ∨ k = 1 ∧ l = 0 ∨ k = 0 ∧ l = 2 ∨ k = 1 ∧ l = 1 ∨ k = 2 ∧ l = 0) with ⟨rfl, rfl⟩ | ⟨rfl, rfl⟩ | ⟨rfl, rfl⟩ | ⟨rfl, rfl⟩ | ⟨rfl, rfl⟩
    · exact ⟨_, by simp [HasArray, setArray, ampKey, List.replicate], i1⟩
    · exact ⟨_, by simp [HasArray, setArray, ampKey, List.replicate], i1⟩
    · exact ⟨_, by simp [HasArray, setArray, ampKey, List.replicate], i2⟩
    · exact ⟨_, by simp [HasArray, setArray, ampKey, List.replicate], i2⟩
    · exact ⟨_, by simp [HasArray, setArray, ampKey, List.replicate], i2⟩
  · refine ⟨_, by simp; rfl, fun k l h1 h2 => ?_⟩
    rcases (by omega : k = 0 ∧ l = 1 ∨ k = 1 ∧ l = 0 ∨ k = 0 ∧ l = 2 ∨ k = 1 ∧ l = 1 ∨ k = 2 ∧ l = 0 ∨ k = 0 ∧ l = 3 ∨ k = 1 ∧ l = 2 ∨ k = 2 ∧ l = 1 ∨ k = 3 ∧ l = 0) with
      ⟨rfl, rfl⟩ | ⟨rfl, rfl⟩ | ⟨rfl, rfl⟩ | ⟨rfl, rfl⟩ | ⟨rfl, rfl⟩ | ⟨rfl, rfl⟩ | ⟨rfl, rfl⟩ | ⟨rfl, rfl⟩ | ⟨rfl, rfl⟩
    · exact ⟨_, by simp [HasArray, setArray, ampKey, List.replicate], i1⟩
    · exact ⟨_, by simp [HasArray, setArray, ampKey, List.replicate], i1⟩
    · exact ⟨_, by simp [HasArray, setArray, ampKey, List.replicate], i2⟩
    · exact ⟨_, by simp [HasArray, setArray, ampKey, List.replicate], i2⟩
    · exact ⟨_, by simp [HasArray, setArray, ampKey, List.replicate], i2⟩
    · exact ⟨_, by simp [HasArray, setArray, ampKey, List.replicate], i3⟩
    · exact ⟨_, by simp [HasArray, setArray, ampKey, List.replicate], i3⟩
    · exact ⟨_, by simp [HasArray, setArray, ampKey, List.replicate], i3⟩
    · exact ⟨_, by simp [HasArray, setArray, ampKey, List.replicate], i3⟩

private theorem bind_ne_ok {α β : Type} {x : Res α} {f : α → Res β} {b : β} (h : ∀ a, f a ≠ .ok b) : (x >>= f) ≠ .ok b := by
  cases x with
  | error e => intro h; cases h
  | ok a => exact h a

/-- **C83** a rank above three is refused -/
theorem C83_rank_refused (H : List (Str × NdArray S)) (rank : Int) (hr : 3 < rank) :
    (∀ D, inverseDenominators H rank ≠ .ok D) ∧ ∀ D, inverseDenominatorsSpin H rank ≠ .ok D := by
  have r3 : rank > 3 := hr
  constructor
  · intro D
    simp only [inverseDenominators, r3, show rank ≥ 1 by omega, show rank ≥ 2 by omega, show rank ≥ 3 by omega, if_true]
    repeat (first | (intro h; cases h; done) | refine bind_ne_ok fun _ => ?_)
  · intro D
    simp only [inverseDenominatorsSpin, r3, show rank ≥ 1 by omega, show rank ≥ 2 by omega, show rank ≥ 3 by omega, if_true]
    repeat (first | (intro h; cases h; done) | refine bind_ne_ok fun _ => ?_)

private theorem find_setArray (D : List (Str × NdArray S)) (key : Str) (X : NdArray S) : HasArray (setArray D key X) key X := by
  simp only [HasArray, setArray]
  split
  · rename_i h
    induction D with
    | nil => simp at h
    | cons p D ih =>
      by_cases hp : p.1 = key
      · simp [hp]
      · simp only [List.any_cons, hp, decide_false, Bool.false_or] at h
        simpa [hp] using ih h
  · rename_i h
    rw [List.find?_append]
    have : D.find? (fun p => decide (p.1 = key)) = none := by
      rw [List.find?_eq_none]
      intro p hp
      simp only [List.any_eq_true, not_exists, not_and] at h
      exact h p hp
    simp [this]

private theorem find_setArray_ne (D : List (Str × NdArray S)) (key k' : Str) (X : NdArray S) (hne : k' ≠ key) :
    (setArray D key X).find? (fun p => decide (p.1 = k')) = D.find? (fun p => decide (p.1 = k')) := by
  simp only [setArray]
  split
  · rename_i h
    clear h
    induction D with
    | nil => rfl
    | cons p D ih =>
      rw [List.map_cons, List.find?_cons, List.find?_cons, ih]
      by_cases hp : p.1 = key
      · simp [hp, hne.symm]
      · simp [hp]
  · rw [List.find?_append]
    simp [hne.symm]

private theorem getArray_iff {D : List (Str × NdArray S)} {key X} : getArray D key = .ok X ↔ HasArray D key X := by
  constructor
  · intro h
    simp only [getArray] at h
    cases hf : D.find? (fun p => decide (p.1 = key)) with
    | none => rw [hf] at h; cases h
    | some p =>
      rw [hf] at h
      have h1 := List.find?_some hf
      simp only [decide_eq_true_eq] at h1
      cases h
      rw [HasArray, hf, ← h1]
  · exact getArray_ok

private theorem hasArray_unique {D : List (Str × NdArray S)} {key X Y} (h : HasArray D key X) (h' : HasArray D key Y) : X = Y := by
  rw [HasArray] at h h'
  rw [h] at h'
  simpa using h'

private theorem updateBlock_ok {T R invD : List (Str × NdArray S)} {key : Str} (h : MatchingBlocks T R invD key) :
    ∃ T', updateBlock T R invD key = .ok T' ∧ BlockUpdated T R invD T' key ∧ ∀ k, k ≠ key → T'.find? (fun p => decide (p.1 = k)) = T.find? (fun p => decide (p.1 = k)) := by
  obtain ⟨t, r, d, ht, hr, hd, e1, e2⟩ := h
  refine ⟨_, by
    simp only [updateBlock, getArray_ok ht, getArray_ok hr, getArray_ok hd, bind, Except.bind, e1, e2, and_self, if_true]
    rfl, ⟨t, r, d, _, ht, hr, hd, find_setArray _ _ _, by simp [e1, e2], fun I => rfl⟩, fun k hk => find_setArray_ne _ _ _ _ hk⟩

private theorem updateBlocks_ok (R invD : List (Str × NdArray S)) : ∀ (keys : List Str) (T : List (Str × NdArray S)), keys.Nodup → (∀ key ∈ keys, MatchingBlocks T R invD key) →
    ∃ T', keys.foldlM (fun T key => updateBlock T R invD key) T = .ok T' ∧ (∀ key ∈ keys, BlockUpdated T R invD T' key) ∧
      ∀ k, k ∉ keys → T'.find? (fun p => decide (p.1 = k)) = T.find? (fun p => decide (p.1 = k))
  | [], T, _, _ => ⟨T, rfl, by simp, fun _ _ => rfl⟩
  | key :: keys, T, hn, h => by
    obtain ⟨T1, h1, u1, o1⟩ := updateBlock_ok (h key (by simp))
    have hk : key ∉ keys := (List.nodup_cons.1 hn).1
    have hne : ∀ k ∈ keys, k ≠ key := fun k hm e => hk (e ▸ hm)
    have h' : ∀ k ∈ keys, MatchingBlocks T1 R invD k := by
      intro k hm
      obtain ⟨t, r, d, ht, hh⟩ := h k (by simp [hm])
      refine ⟨t, r, d, ?_, hh⟩
      rw [HasArray, o1 k (hne k hm)]; exact ht
    obtain ⟨T', h2, u2, o2⟩ := updateBlocks_ok R invD keys T1 (List.nodup_cons.1 hn).2 h'
    refine ⟨T', by rw [List.foldlM_cons, h1]; exact h2, ?_, ?_⟩
    · intro k hm
      rcases List.mem_cons.1 hm with rfl | hm
      · obtain ⟨t, r, d, t', ht, hr, hd, ht', hs, he⟩ := u1
        exact ⟨t, r, d, t', ht, hr, hd, by rw [HasArray, o2 k hk]; exact ht', hs, he⟩
      · obtain ⟨t, r, d, t', ht, hh⟩ := u2 k hm
        exact ⟨t, r, d, t', by rw [HasArray, ← o1 k (hne k hm)]; exact ht, hh⟩
    · intro k hm
      rw [List.mem_cons, not_or] at hm
      rw [o2 k hm.2, o1 k hm.1]

private def spinorbitalKeys (rank : Int) : List Str :=
  (if rank ≥ 1 then ["ov".toList] else []) ++ ((if rank ≥ 2 then ["oovv".toList] else []) ++ if rank ≥ 3 then ["ooovvv".toList] else [])
private def spinKeys (rank : Int) : List Str :=
  (if rank ≥ 1 then ["ov".toList, "OV".toList] else []) ++ ((if rank ≥ 2 then ["oovv".toList, "OOVV".toList, "oOvV".toList] else []) ++
    if rank ≥ 3 then ["ooovvv".toList, "OOOVVV".toList, "ooOvvV".toList, "oOOvVV".toList] else [])

private theorem foldlM_append {α β : Type} (f : β → α → Res β) (l l' : List α) (b : β) : (l ++ l').foldlM f b = l.foldlM f b >>= fun b => l'.foldlM f b := by
  simp

private theorem update_eq (T R invD : List (Str × NdArray S)) (rank : Int) :
    updateAmplitudes T R invD rank = (spinorbitalKeys rank).foldlM (fun T key => updateBlock T R invD key) T := by
  rw [spinorbitalKeys, foldlM_append]
  simp only [foldlM_append, updateAmplitudes]
  by_cases h1 : rank ≥ 1 <;> by_cases h2 : rank ≥ 2 <;> by_cases h3 : rank ≥ 3 <;> simp only [h1, h2, h3, if_true, if_false, List.foldlM_cons, List.foldlM_nil, bind_pure, pure_bind]

private theorem update_spin_eq (T R invD : List (Str × NdArray S)) (rank : Int) :
    updateAmplitudesSpin T R invD rank = (spinKeys rank).foldlM (fun T key => updateBlock T R invD key) T := by
  rw [spinKeys, foldlM_append]
  simp only [foldlM_append, updateAmplitudesSpin]
  by_cases h1 : rank ≥ 1 <;> by_cases h2 : rank ≥ 2 <;> by_cases h3 : rank ≥ 3 <;> simp only [h1, h2, h3, if_true, if_false, List.foldlM_nil, bind_pure, pure_bind]

private theorem mem_spinorbitalKeys (rank : Int) (key : Str) : key ∈ spinorbitalKeys rank ↔ ∃ n : Nat, 1 ≤ n ∧ n ≤ 3 ∧ (n : Int) ≤ rank ∧ key = ampKey n 0 := by
  constructor
  · intro h
    simp only [spinorbitalKeys, List.mem_append] at h
    rcases h with h | h | h <;> split at h <;> simp only [List.mem_cons, List.not_mem_nil, or_false] at h
    · exact ⟨1, by omega, by omega, by omega, h⟩
    · exact ⟨2, by omega, by omega, by omega, h⟩
    · exact ⟨3, by omega, by omega, by omega, h⟩
  · rintro ⟨n, h1, h2, h3, rfl⟩
    simp only [spinorbitalKeys, List.mem_append]
    rcases (by omega : n = 1 ∨ n = 2 ∨ n = 3) with rfl | rfl | rfl
    · rw [if_pos (by omega : rank ≥ 1)]; exact .inl (.head _)
    · rw [if_pos (by omega : rank ≥ 2)]; exact .inr (.inl (.head _))
    · rw [if_pos (by omega : rank ≥ 3)]; exact .inr (.inr (.head _))

private theorem mem_spinKeys (rank : Int) (key : Str) : key ∈ spinKeys rank ↔ ∃ k l : Nat, 1 ≤ k + l ∧ k + l ≤ 3 ∧ ((k + l : Nat) : Int) ≤ rank ∧ key = ampKey k l := by
  constructor
  · intro h
    simp only [spinKeys, List.mem_append] at h
    rcases h with h | h | h <;> split at h <;> simp only [List.mem_cons, List.not_mem_nil, or_false] at h
    · rcases h with h | h
      · exact ⟨1, 0, by omega, by omega, by omega, h⟩
      · exact ⟨0, 1, by omega, by omega, by omega, h⟩
    · rcases h with h | h | h
      · exact ⟨2, 0, by omega, by omega, by omega, h⟩
      · exact ⟨0, 2, by omega, by omega, by omega, h⟩
      · exact ⟨1, 1, by omega, by omega, by omega, h⟩
    · rcases h with h | h | h | h
      · exact ⟨3, 0, by omega, by omega, by omega, h⟩
      · exact ⟨0, 3, by omega, by omega, by omega, h⟩
      · exact ⟨2, 1, by omega, by omega, by omega, h⟩
      · exact ⟨1, 2, by omega, by omega, by omega, h⟩
  · rintro ⟨k, l, h1, h2, h3, rfl⟩
    simp only [spinKeys, List.mem_append]
    rcases (by omega : k = 0 ∧ l = 1 ∨ k = 1 ∧ l = 0 ∨ k = 0 ∧ l = 2 ∨ k = 1 ∧ l = 1 ∨ k = 2 ∧ l = 0 ∨ k = 0 ∧ l = 3 ∨ k = 1 ∧ l = 2 ∨ k = 2 ∧ l = 1 ∨ k = 3 ∧ l = 0) with
      ⟨rfl, rfl⟩ | ⟨rfl, rfl⟩ | ⟨rfl, rfl⟩ | ⟨rfl, rfl⟩ | ⟨rfl, rfl⟩ | ⟨rfl, rfl⟩ | ⟨rfl, rfl⟩ | ⟨rfl, rfl⟩ | ⟨rfl, rfl⟩
    · rw [if_pos (by omega : rank ≥ 1)]; left; decide
    · rw [if_pos (by omega : rank ≥ 1)]; left; decide
    · rw [if_pos (by omega : rank ≥ 2)]; right; left; decide
    · rw [if_pos (by omega : rank ≥ 2)]; right; left; decide
    · rw [if_pos (by omega : rank ≥ 2)]; right; left; decide
    · rw [if_pos (by omega : rank ≥ 3)]; right; right; decide
    · rw [if_pos (by omega : rank ≥ 3)]; right; right; decide
    · rw [if_pos (by omega : rank ≥ 3)]; right; right; decide
    · rw [if_pos (by omega : rank ≥ 3)]; right; right; decide

private theorem nodup_spinorbitalKeys (rank : Int) : (spinorbitalKeys rank).Nodup := by
  rw [spinorbitalKeys]
  by_cases h1 : rank ≥ 1 <;> by_cases h2 : rank ≥ 2 <;> by_cases h3 : rank ≥ 3 <;> simp only [h1, h2, h3, if_true, if_false] <;> decide
private theorem nodup_spinKeys (rank : Int) : (spinKeys rank).Nodup := by
  rw [spinKeys]
  by_cases h1 : rank ≥ 1 <;> by_cases h2 : rank ≥ 2 <;> by_cases h3 : rank ≥ 3 <;> simp only [h1, h2, h3, if_true, if_false] <;> decide

/-- **C83** `update_cc_amplitudes` adds to every block of the amplitudes with at most `rank` (and at most three) excitations the residual times the inverse denominators and leaves
all other entries of the dictionary alone -/
theorem C83_update (T R invD : List (Str × NdArray S)) (rank : Int) (h : ∀ n : Nat, 1 ≤ n → n ≤ 3 → (n : Int) ≤ rank → MatchingBlocks T R invD (ampKey n 0)) :
    ∃ T', updateAmplitudes T R invD rank = .ok T' ∧ (∀ n : Nat, 1 ≤ n → n ≤ 3 → (n : Int) ≤ rank → BlockUpdated T R invD T' (ampKey n 0)) ∧
      ∀ key, (∀ n : Nat, 1 ≤ n → n ≤ 3 → (n : Int) ≤ rank → key ≠ ampKey n 0) → ∀ X, HasArray T' key X ↔ HasArray T key X := by
  obtain ⟨T', h1, h2, h3⟩ := updateBlocks_ok R invD (spinorbitalKeys rank) T (nodup_spinorbitalKeys rank) (fun key hk => by
    obtain ⟨n, a, b, c, rfl⟩ := (mem_spinorbitalKeys rank key).1 hk
    exact h n a b c)
  refine ⟨T', by rw [update_eq]; exact h1, fun n a b c => h2 _ ((mem_spinorbitalKeys rank _).2 ⟨n, a, b, c, rfl⟩), fun key hk X => ?_⟩
  rw [HasArray, HasArray, h3 key (fun hm => by
    obtain ⟨n, a, b, c, e⟩ := (mem_spinorbitalKeys rank key).1 hm
    exact hk n a b c e)]

/-- **C83** the same for the spin-integrated version, with one block for every number of spin-up and spin-down excitations -/
theorem C83_update_spin (T R invD : List (Str × NdArray S)) (rank : Int)
    (h : ∀ k l : Nat, 1 ≤ k + l → k + l ≤ 3 → ((k + l : Nat) : Int) ≤ rank → MatchingBlocks T R invD (ampKey k l)) :
    ∃ T', updateAmplitudesSpin T R invD rank = .ok T' ∧
      (∀ k l : Nat, 1 ≤ k + l → k + l ≤ 3 → ((k + l : Nat) : Int) ≤ rank → BlockUpdated T R invD T' (ampKey k l)) ∧
      ∀ key, (∀ k l : Nat, 1 ≤ k + l → k + l ≤ 3 → ((k + l : Nat) : Int) ≤ rank → key ≠ ampKey k l) → ∀ X, HasArray T' key X ↔ HasArray T key X := by
  obtain ⟨T', h1, h2, h3⟩ := updateBlocks_ok R invD (spinKeys rank) T (nodup_spinKeys rank) (fun key hk => by
    obtain ⟨k, l, a, b, c, rfl⟩ := (mem_spinKeys rank key).1 hk
    exact h k l a b c)
  refine ⟨T', by rw [update_spin_eq]; exact h1, fun k l a b c => h2 _ ((mem_spinKeys rank _).2 ⟨k, l, a, b, c, rfl⟩), fun key hk X => ?_⟩
  rw [HasArray, HasArray, h3 key (fun hm => by
    obtain ⟨k, l, a, b, c, e⟩ := (mem_spinKeys rank key).1 hm
    exact hk k l a b c e)]

private theorem split_within {n no nv : Nat} {J : List Nat} (h : Within (List.replicate n no ++ List.replicate n nv) J) :
    ∃ I A, J = I ++ A ∧ Within (List.replicate n no) I ∧ Within (List.replicate n nv) A := by
  refine ⟨J.take n, J.drop n, (List.take_append_drop n J).symm, ?_, ?_⟩
  · have := List.forall₂_take n h
    simpa [Within] using this
  · have := List.forall₂_drop n h
    simpa [Within] using this

private theorem block_fixed {T R invD T' : List (Str × NdArray S)} {key : Str} {n no nv : Nat} {oo vv X t r t' : NdArray S} (hu : BlockUpdated T R invD T' key)
    (hX : HasArray invD key X) (hI : IsInverseDenominator n no nv oo vv X) (hz : NonzeroEnergies n no nv oo vv) (ht : HasArray T key t) (hr : HasArray R key r)
    (ht' : HasArray T' key t') (J : List Nat) (hJ : Within X.shape J) : t'.elem J = t.elem J ↔ r.elem J = 0 := by
  obtain ⟨t1, r1, d1, t1', a, b, c, d, _, he⟩ := hu
  obtain rfl := hasArray_unique a ht
  obtain rfl := hasArray_unique b hr
  obtain rfl := hasArray_unique c hX
  obtain rfl := hasArray_unique d ht'
  rw [hI.1] at hJ
  obtain ⟨I, A, rfl, h1, h2⟩ := split_within hJ
  rw [he, hI.2 I A h1 h2, add_eq_left, mul_eq_zero, inv_eq_zero]
  exact or_iff_left (hz I A h1 h2)

/-- **C83** with the denominators of `compute_inverse_denominators`, none of them zero, the update leaves the amplitudes at a position as they are exactly when the residual there is
zero: the fixed points of the iteration are the solutions of the equations -/
theorem C83_fixed_point (H T R D T' : List (Str × NdArray S)) (oo vv : NdArray S) (no nv : Nat) (hoo : HasArray H "oo".toList oo) (hvv : HasArray H "vv".toList vv)
    (hno : oo.shape = [no, no]) (hnv : vv.shape = [nv, nv]) (rank : Int) (hD : inverseDenominators H rank = .ok D)
    (h : ∀ n : Nat, 1 ≤ n → n ≤ 3 → (n : Int) ≤ rank → MatchingBlocks T R D (ampKey n 0))
    (hT : updateAmplitudes T R D rank = .ok T') (n : Nat) (h1 : 1 ≤ n) (hn : (n : Int) ≤ rank) (hz : NonzeroEnergies n no nv oo vv) (t r t' : NdArray S) (ht : HasArray T (ampKey n 0) t)
    (hr : HasArray R (ampKey n 0) r) (ht' : HasArray T' (ampKey n 0) t') (I A : List Nat) (hI : Within (List.replicate n no) I) (hA : Within (List.replicate n nv) A) :
    t'.elem (I ++ A) = t.elem (I ++ A) ↔ r.elem (I ++ A) = 0 := by
  have hr3 : rank ≤ 3 := by
    by_contra hc
    exact (C83_rank_refused H rank (by omega)).1 D hD
  obtain ⟨D', hD', hX⟩ := C83_denominators H oo vv no nv hoo hvv hno hnv rank hr3
  rw [hD] at hD'; cases hD'
  obtain ⟨X, hX, hinv⟩ := hX n h1 hn
  obtain ⟨T'', e, hu, _⟩ := C83_update T R D rank h
  rw [hT] at e; cases e
  refine block_fixed (hu n h1 (by omega) hn) hX hinv hz ht hr ht' _ ?_
  rw [hinv.1]
  exact List.rel_append hI hA

/-- **C83** the same for the spin-integrated version -/
theorem C83_fixed_point_spin (H T R D T' : List (Str × NdArray S)) (oo vv : NdArray S) (no nv : Nat) (hoo : HasArray H "oo".toList oo) (hvv : HasArray H "vv".toList vv)
    (hno : oo.shape = [no, no]) (hnv : vv.shape = [nv, nv]) (rank : Int) (hD : inverseDenominatorsSpin H rank = .ok D)
    (h : ∀ k l : Nat, 1 ≤ k + l → k + l ≤ 3 → ((k + l : Nat) : Int) ≤ rank → MatchingBlocks T R D (ampKey k l))
    (hT : updateAmplitudesSpin T R D rank = .ok T') (k l : Nat) (h1 : 1 ≤ k + l) (hn : ((k + l : Nat) : Int) ≤ rank) (hz : NonzeroEnergies (k + l) no nv oo vv) (t r t' : NdArray S) (ht : HasArray T (ampKey k l) t)
    (hr : HasArray R (ampKey k l) r) (ht' : HasArray T' (ampKey k l) t') (I A : List Nat) (hI : Within (List.replicate (k + l) no) I) (hA : Within (List.replicate (k + l) nv) A) :
    t'.elem (I ++ A) = t.elem (I ++ A) ↔ r.elem (I ++ A) = 0 := by
  have hr3 : rank ≤ 3 := by
    by_contra hc
    exact (C83_rank_refused H rank (by omega)).2 D hD
  obtain ⟨D', hD', hX⟩ := C83_denominators_spin H oo vv no nv hoo hvv hno hnv rank hr3
  rw [hD] at hD'; cases hD'
  obtain ⟨X, hX, hinv⟩ := hX k l h1 hn
  obtain ⟨T'', e, hu, _⟩ := C83_update_spin T R D rank h
  rw [hT] at e; cases e
  refine block_fixed (hu k l h1 (by omega) hn) hX hinv hz ht hr ht' _ ?_
  rw [hinv.1]
  exact List.rel_append hI hA
end

/-! A concrete case: one occupied and two virtual orbitals with energies `-1`, `1`, `2`. -/
private def exOO : NdArray Rat := ⟨[1, 1], fun _ => -1⟩
private def exVV : NdArray Rat := ⟨[2, 2], fun I => I.headD 0 + 1⟩
private def exHmat : List (Str × NdArray Rat) := [("oo".toList, exOO), ("vv".toList, exVV)]
private def exR : List (Str × NdArray Rat) := [("ov".toList, ⟨[1, 2], fun _ => 6⟩)]
private def exT : List (Str × NdArray Rat) := [("ov".toList, ⟨[1, 2], fun _ => 0⟩)]

example : ∃ D T', inverseDenominators exHmat 1 = .ok D ∧ updateAmplitudes exT exR D 1 = .ok T' ∧ ∃ t', HasArray T' (ampKey 1 0) t' ∧ t'.elem [0, 0] = -3 ∧ t'.elem [0, 1] = -2 := by
  refine ⟨_, _, rfl, rfl, _, rfl, ?_, ?_⟩
  · norm_num [npProject, npInv, npColumn, exOO, exVV]
  · norm_num [npProject, npInv, npColumn, exOO, exVV]

example : NonzeroEnergies 1 1 2 exOO exVV := by
  intro I A hI hA
  obtain ⟨i, rfl, hi⟩ := within1 hI
  obtain ⟨a, rfl, ha⟩ := within1 hA
  rcases (by omega : a = 0 ∨ a = 1) with rfl | rfl <;> norm_num [exOO, exVV]
end Wicked
