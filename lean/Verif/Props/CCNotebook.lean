import Verif.Props.NotebookKeys
import Verif.Props.MP2
import Verif.Props.Amplitudes
import Verif.Spec.CCNotebook
/-! # C100: the loops of the coupled-cluster notebooks -/
namespace Wicked
open CppLt CppEq Rational Lin
open scoped BigOperators

namespace Wick
section
variable {Ω R : Type} [Inhabited Ω] [DecidableEq Ω] [CommRing R]

/-- the element of an accepted line depends only on the elements of the operands within their axes -/
theorem element_congr {L : EinsumLine} (hL : L.Accepted) {dom : Char → Finset Ω} {arr arr' : Str → Str → List Ω → R}
    (h : ∀ name key x, List.Forall₂ (fun a c => a ∈ dom c) x key → arr name key x = arr' name key x) : L.element arr dom = L.element arr' dom := by
  funext x
  unfold EinsumLine.element
  apply sumOver_congr
  intro τ hτ
  congr 2
  refine List.map_congr_left (fun p hp => h _ _ _ ?_)
  have hr := hL.ranks p hp
  have key : ∀ q ∈ p.1.zip p.2.2, τ q.1 ∈ dom q.2 := by
    intro q hq
    have hax : q ∈ L.axes := List.mem_flatMap.2 ⟨p, hp, hq⟩
    have h1 := hτ q.1 (by rw [List.mem_toFinset]; exact List.mem_map_of_mem hax)
    have h2 : L.spaceOf q.1 = q.2 := by
      unfold EinsumLine.spaceOf
      cases hf : L.axes.find? (fun p => p.1 = q.1) with
      | none => exact absurd (List.find?_eq_none.1 hf q hax) (by simp)
      | some w =>
        have hw := List.find?_some hf
        exact hL.same w (List.mem_of_find?_eq_some hf) q hax (by simpa using hw)
    rw [h2] at h1
    exact h1
  clear h hp hτ
  generalize p.1 = a at *
  generalize p.2.2 = b at *
  induction a generalizing b with
  | nil => cases b with
    | nil => exact .nil
    | cons _ _ => simp at hr
  | cons c a ih => cases b with
    | nil => simp at hr
    | cons d b => exact .cons (key (c, d) (by simp)) (ih b (by simpa using hr) (fun q hq => key q (by simp [hq])))

theorem runs_congr [Algebra ℚ R] {dom : Char → Finset Ω} {arr arr' : Str → Str → List Ω → R}
    (h : ∀ name key x, List.Forall₂ (fun a c => a ∈ dom c) x key → arr name key x = arr' name key x) : ∀ {lines : List Str} {s s' : Str → List Ω → R}, Runs arr dom lines s s' → Runs arr' dom lines s s'
  | [], _, _, hr => hr
  | _ :: _, _, _, ⟨L, f, h1, h2, h3, h4⟩ => ⟨L, f, h1, h2, h3, by
    have := runs_congr h h4
    rw [element_congr h2 h] at this
    exact this⟩

theorem returnsArray_congr [Algebra ℚ R] {dom : Char → Finset Ω} {arr arr' : Str → Str → List Ω → R} {text name : Str} {dims : Option (List Str)} {r : List Ω → R}
    (h : ∀ name key x, List.Forall₂ (fun a c => a ∈ dom c) x key → arr name key x = arr' name key x) (hr : ReturnsArray arr dom text name dims r) : ReturnsArray arr' dom text name dims r := by
  obtain ⟨F, h1, h2, h3, h4, h5, s, h6, h7⟩ := hr
  exact ⟨F, h1, h2, h3, h4, h5, s, runs_congr h h6, h7⟩
end

section
variable {S : Type} [Field S] [CharZero S] [LinearOrder S] [IsStrictOrderedRing S] {nocc nvir : Nat} [NeZero (nocc + nvir)]

/-- the arrays as elements of tensors, for keys with the letters `o` and `v` -/
private def ccArr (Hd Td : List (Str × NdArray S)) (lab key : Str) (x : List (Fin (nocc + nvir))) : S :=
  if ∀ c ∈ key, c = 'o' ∨ c = 'v' then elemOf (if lab = ['H'] then Hd else Td) (x.map (orbLabel nocc)) (x.map (orbPos nocc)) else ccArrays Hd Td lab key x

private theorem ccArr_eq (Hd Td : List (Str × NdArray S)) (name key : Str) (x : List (Fin (nocc + nvir))) (h : List.Forall₂ (fun a c => a ∈ ccDom nocc nvir c) x key) :
    ccArr Hd Td name key x = ccArrays Hd Td name key x := by
  unfold ccArr
  split
  · rename_i hk
    have : x.map (orbLabel nocc) = key := by
      induction h with
      | nil => rfl
      | @cons a c x key ha _ ih =>
        rw [List.map_cons, ih (fun c hc => hk c (by simp [hc]))]
        congr 1
        rcases hk c (by simp) with rfl | rfl
        · simp only [ccDom, if_true, Finset.mem_filter, Finset.mem_univ, true_and, isOcc, decide_eq_true_eq] at ha
          simp [orbLabel, ha]
        · simp only [ccDom, show ('v' : Char) ≠ 'o' by decide, if_false, Finset.mem_filter, Finset.mem_univ, true_and, isOcc, decide_eq_false_iff_not] at ha
          simp [orbLabel, ha]
    rw [this]
    rfl
  · rfl

/-- what C96 says about the functions in terms of the dictionaries -/
theorem cc_functions (hist : List RegOp) (hok : allOk OSI.empty hist) {fmt : Rational → Str} {cfg : WickCfg} {rank : Nat} {unique : Bool} :
    let o := runReg OSI.empty hist
    o.spaces.map (fun s => (s.label, s.spaceType)) = [('o', .occupied), ('v', .unoccupied)] →
    (∀ s ∈ o.spaces, ∀ name ∈ s.indices, ∀ (c : Char) (n : Int), name ≠ c :: '_' :: '{' :: (intStr n ++ ['}'])) → PrintsNine fmt → 1 ≤ rank → rank ≤ 6 →
    ∃ (E : OpExpr) (e : Expr) (m : List (Str × List Equation)) (text : Nat → Str), notebookHbar o (List.range' 1 rank) unique = .ok E ∧ contractExpr o cfg (Rational.ofInt 1) E 0 (2 * rank) = .ok e ∧ e.toManybody o ['R'] = .ok m ∧
      (∀ n ≤ rank, generateEquation o fmt m n n = .ok (text n)) ∧
      ∀ Hd : List (Str × NdArray S), AntisymTensor (dictTensor (nvir := nvir) nocc Hd) → ∀ T : List (Str × NdArray S), AntisymTensor (dictTensor (nvir := nvir) nocc T) → ∀ n ≤ rank,
        ∃ r, ReturnsArray (ccArrays (nocc := nocc) (nvir := nvir) Hd T) (ccDom nocc nvir) (text n) ("evaluate_residual_".toList ++ natStr n ++ "_".toList ++ natStr n)
          (if n + n = 0 then none else some (List.replicate n "nocc".toList ++ List.replicate n "nvir".toList)) r ∧
        ∀ u l : List (Fin (nocc + nvir)), u.length = n → l.length = n → (∀ x ∈ u, isOcc nocc x = true) → (∀ x ∈ l, isOcc nocc x = false) →
          |antisymmetrizer 0 n (antisymmetrizer n n r) (u ++ l) - ccElement Hd T rank u l| ≤ ccError e Hd T u l ∧
          ((∀ p ∈ e, p.2.den ∣ 10 ^ 9) → antisymmetrizer 0 n (antisymmetrizer n n r) (u ++ l) = ccElement Hd T rank u l) := by
  intro o ho hgen hfmt h1 h6
  have hne : List.range' 1 rank ≠ [] := by simp; omega
  have hr6 : ∀ n ∈ List.range' 1 rank, 1 ≤ n ∧ n ≤ 6 := by intro n hn; rw [List.mem_range'_1] at hn; omega
  obtain ⟨E, e, m, hE, he, hm, k1, k2⟩ := C99_keys hist hok (fmt := fmt) (cfg := cfg) (ranks := List.range' 1 rank) (unique := unique) (minr := 0) (maxr := 2 * rank) ho hgen hfmt hne List.nodup_range' hr6
  have htext : ∀ n : Nat, ∃ t, n ≤ rank → generateEquation o fmt m n n = .ok t := by
    intro n
    by_cases hn : n ≤ rank
    · rcases Nat.eq_zero_or_pos n with rfl | h0
      · obtain ⟨t, ht⟩ := k2 (.inl (by rw [List.mem_range'_1]; omega)) (by omega) (by omega)
        exact ⟨t, fun _ => ht⟩
      · obtain ⟨t, ht⟩ := k1 n (by rw [List.mem_range'_1]; omega) (by omega) (by omega)
        exact ⟨t, fun _ => ht⟩
    · exact ⟨[], fun h => absurd h hn⟩
  choose text ht using htext
  refine ⟨E, e, m, text, hE, he, hm, ht, fun Hd aH T aT n hn => ?_⟩
  obtain ⟨E', e', m', hE', he', hm', h⟩ := C96_notebook (R := S) AbsoluteValue.abs (by intro c; simp) hist hok (fmt := fmt) (cfg := cfg) (ranks := List.range' 1 rank) (unique := unique)
    (minr := 0) (maxr := 2 * rank) ho hgen hfmt hne List.nodup_range' hr6 (ccTensor (nocc := nocc) (nvir := nvir) Hd T) (ccArr Hd T) (isOcc nocc) (by
      intro lab
      show AntisymTensor (dictTensor nocc (if lab = ['H'] then Hd else T))
      split
      · exact aH
      · exact aT) (by
      intro lab key l u hl hk
      unfold ccArr ccTensor dictTensor
      rw [if_pos hk, if_pos hl])
  rw [hE] at hE'; cases hE'
  rw [he] at he'; cases he'
  rw [hm] at hm'; cases hm'
  rcases h n n (by omega) (by omega) with ⟨t, r, g1, g2, g3⟩ | ⟨g, _⟩
  · rw [ht n hn] at g1
    cases g1
    have hdom : (fun c : Char => if c = 'o' then Finset.univ.filter (fun x : Fin (nocc + nvir) => isOcc nocc x = true) else Finset.univ.filter (fun x => isOcc nocc x = false)) = ccDom nocc nvir := by
      funext c
      unfold ccDom
      rfl
    refine ⟨r, returnsArray_congr (fun name key x hx => ccArr_eq Hd T name key x hx) g2, fun u l hu hl hou hol => ?_⟩
    obtain ⟨a, b⟩ := g3 u l hu hl hou hol
    refine ⟨?_, fun hden => ?_⟩
    · refine le_trans (le_of_eq ?_) (a.trans (le_of_eq ?_))
      · rfl
      · rfl
    · exact b hden
  · rw [ht n hn] at g
    cases g
end

section
variable {S : Type} [Field S] {nocc nvir : Nat}

private def Exc (rank : Nat) (u l : List (Fin (nocc + nvir))) : Prop :=
  1 ≤ u.length ∧ u.length ≤ rank ∧ l.length = u.length ∧ (∀ x ∈ u, isOcc nocc x = true) ∧ ∀ x ∈ l, isOcc nocc x = false

private theorem label_occ {x : Fin (nocc + nvir)} : orbLabel nocc x = 'o' ↔ isOcc nocc x = true := by
  unfold orbLabel isOcc
  by_cases h : x.val < nocc <;> simp [h]

private theorem label_vir {x : Fin (nocc + nvir)} : orbLabel nocc x = 'v' ↔ isOcc nocc x = false := by
  unfold orbLabel isOcc
  by_cases h : x.val < nocc <;> simp [h]

private theorem pos_occ {x : Fin (nocc + nvir)} (h : isOcc nocc x = true) : orbPos nocc x < nocc := by
  unfold isOcc at h
  have h : x.val < nocc := by simpa using h
  simp [orbPos, h]

private theorem pos_vir {x : Fin (nocc + nvir)} (h : isOcc nocc x = false) : orbPos nocc x < nvir := by
  unfold isOcc at h
  have h : ¬ x.val < nocc := by simpa using h
  have := x.isLt
  simp [orbPos, h]
  omega

private theorem map_key {u l : List (Fin (nocc + nvir))} (hl : l.length = u.length) {n : Nat} :
    (u ++ l).map (orbLabel nocc) = ampKey n 0 ↔ u.length = n ∧ (∀ x ∈ u, isOcc nocc x = true) ∧ ∀ x ∈ l, isOcc nocc x = false := by
  have hk : ampKey n 0 = List.replicate n 'o' ++ List.replicate n 'v' := by simp [ampKey]
  rw [hk, List.map_append]
  constructor
  · intro h
    have hlen := congrArg List.length h
    simp only [List.length_append, List.length_map, List.length_replicate] at hlen
    have hn : u.length = n := by omega
    obtain ⟨h1, h2⟩ := List.append_inj h (by simp [hn])
    refine ⟨hn, fun x hx => label_occ.1 ?_, fun x hx => label_vir.1 ?_⟩
    · exact List.eq_of_mem_replicate (h1 ▸ List.mem_map_of_mem hx)
    · exact List.eq_of_mem_replicate (h2 ▸ List.mem_map_of_mem hx)
  · rintro ⟨rfl, h1, h2⟩
    congr 1
    · rw [List.eq_replicate_iff]
      exact ⟨by simp, fun c hc => by obtain ⟨x, hx, rfl⟩ := List.mem_map.1 hc; exact label_occ.2 (h1 x hx)⟩
    · rw [List.eq_replicate_iff]
      exact ⟨by simp [hl], fun c hc => by obtain ⟨x, hx, rfl⟩ := List.mem_map.1 hc; exact label_vir.2 (h2 x hx)⟩

private theorem elemOf_has {D : List (Str × NdArray S)} {key : Str} {X : NdArray S} (h : HasArray D key X) (x : List Nat) : elemOf D key x = X.elem x := by
  unfold HasArray at h
  simp only [elemOf, getArray, h, pure, Except.pure]

private theorem dictTensor_block {D : List (Str × NdArray S)} {n : Nat} {X : NdArray S} (h : HasArray D (ampKey n 0) X) {u l : List (Fin (nocc + nvir))} (hu : u.length = n) (hl : l.length = n)
    (hou : ∀ x ∈ u, isOcc nocc x = true) (hol : ∀ x ∈ l, isOcc nocc x = false) : dictTensor nocc D l u = X.elem (u.map (orbPos nocc) ++ l.map (orbPos nocc)) := by
  unfold dictTensor
  rw [if_pos (hl.trans hu.symm), (map_key (hl.trans hu.symm)).2 ⟨hu, hou, hol⟩, elemOf_has h, List.map_append]

omit [Field S] in
private theorem hasArray_of {D : List (Str × NdArray S)} {key : Str} {X : NdArray S} (h : getArray D key = .ok X) : HasArray D key X := by
  unfold getArray at h
  unfold HasArray
  cases hf : D.find? (fun p => decide (p.1 = key)) with
  | none => rw [hf] at h; cases h
  | some p =>
    rw [hf] at h
    have hk := List.find?_some hf
    obtain ⟨a, b⟩ := p
    have : a = key := by simpa using hk
    subst this
    cases h
    rfl

private theorem dictTensor_zero {D : List (Str × NdArray S)} {rank : Nat} (h : IsAmplitudes nocc nvir rank D) {u l : List (Fin (nocc + nvir))} (hne : ¬ Exc rank u l) : dictTensor nocc D l u = 0 := by
  unfold dictTensor
  split
  · rename_i hl
    unfold elemOf
    cases hg : getArray D ((u ++ l).map (orbLabel nocc)) with
    | error _ => rfl
    | ok X =>
      exfalso
      obtain ⟨n, h1, h2, hk⟩ := h.only _ _ (hasArray_of hg)
      obtain ⟨hn, a, b⟩ := (map_key hl).1 hk
      exact hne ⟨by omega, by omega, hl, a, b⟩
  · rfl

private theorem isAmplitudes_start (nocc nvir : Nat) {rank : Nat} (hr : rank = 2 ∨ rank = 3) : IsAmplitudes nocc nvir rank (ccStart (S := S) nocc nvir rank) := by
  constructor
  · intro n h1 h2
    rcases hr with rfl | rfl
    · rcases (by omega : n = 1 ∨ n = 2) with rfl | rfl
      · exact ⟨_, rfl, rfl⟩
      · exact ⟨_, rfl, rfl⟩
    · rcases (by omega : n = 1 ∨ n = 2 ∨ n = 3) with rfl | rfl | rfl
      · exact ⟨_, rfl, rfl⟩
      · exact ⟨_, rfl, rfl⟩
      · exact ⟨_, rfl, rfl⟩
  · intro key X h
    have hm := List.mem_of_find?_eq_some h
    rcases hr with rfl | rfl
    · simp only [ccStart, List.append_nil, show ¬ (2 : Nat) = 3 by decide, if_false, List.mem_cons, List.not_mem_nil, or_false, Prod.mk.injEq] at hm
      rcases hm with ⟨rfl, _⟩ | ⟨rfl, _⟩
      · exact ⟨1, by decide, by decide, by decide⟩
      · exact ⟨2, by decide, by decide, by decide⟩
    · simp only [ccStart, if_true, List.cons_append, List.nil_append, List.mem_cons, List.not_mem_nil, or_false, Prod.mk.injEq] at hm
      rcases hm with ⟨rfl, _⟩ | ⟨rfl, _⟩ | ⟨rfl, _⟩
      · exact ⟨1, by decide, by decide, by decide⟩
      · exact ⟨2, by decide, by decide, by decide⟩
      · exact ⟨3, by decide, by decide, by decide⟩

private theorem dictTensor_start {rank : Nat} (l u : List (Fin (nocc + nvir))) : dictTensor nocc (ccStart (S := S) nocc nvir rank) l u = 0 := by
  unfold dictTensor
  split
  · unfold elemOf
    cases hg : getArray (ccStart (S := S) nocc nvir rank) ((u ++ l).map (orbLabel nocc)) with
    | error _ => rfl
    | ok X =>
      have hm := List.mem_of_find?_eq_some (hasArray_of hg)
      unfold ccStart at hm
      split at hm
      · simp only [List.cons_append, List.nil_append, List.mem_cons, List.not_mem_nil, or_false, Prod.mk.injEq] at hm
        rcases hm with ⟨_, rfl⟩ | ⟨_, rfl⟩ | ⟨_, rfl⟩ <;> rfl
      · simp only [List.append_nil, List.mem_cons, List.not_mem_nil, or_false, Prod.mk.injEq] at hm
        rcases hm with ⟨_, rfl⟩ | ⟨_, rfl⟩ <;> rfl
  · rfl

private theorem swap_lists {α : Type} {pre post : List α} {a b : α} {n : Nat} (h : (pre ++ a :: b :: post).length = n) (h3 : n ≤ 3) :
    (n = 2 ∧ pre = [] ∧ post = []) ∨ (n = 3 ∧ ((∃ c, pre = [] ∧ post = [c]) ∨ ∃ c, pre = [c] ∧ post = [])) := by
  match pre, post, h with
  | [], [], h => left; exact ⟨by simpa using h.symm, rfl, rfl⟩
  | [], [c], h => right; exact ⟨by simpa using h.symm, .inl ⟨c, rfl, rfl⟩⟩
  | [c], [], h => right; exact ⟨by simpa using h.symm, .inr ⟨c, rfl, rfl⟩⟩
  | [], _ :: _ :: _, h => simp at h; omega
  | [_], _ :: _, h => simp at h; omega
  | _ :: _ :: _, _, h => simp at h; omega

private theorem anti22 (X : List Nat → S) (i j a b : Nat) : antisymmetrize22 X [j, i, a, b] = - antisymmetrize22 X [i, j, a, b] ∧ antisymmetrize22 X [i, j, b, a] = - antisymmetrize22 X [i, j, a, b] := by
  constructor <;>
  · simp [antisymmetrize22, runTranspose, antisym22Lines, einsumTranspose]
    ring

private def alt3 {Ω : Type} (f : Ω → Ω → Ω → S) (a b c : Ω) : S := f a b c - f a c b - f b a c + f b c a + f c a b - f c b a

private theorem form33 {Ω : Type} [Inhabited Ω] (X : List Ω → S) (i j k a b c : Ω) : antisymmetrize33 X [i, j, k, a, b, c] = alt3 (fun x y z => alt3 (fun d e f => X [x, y, z, d, e, f]) a b c) i j k := by
  simp [antisymmetrize33, runTranspose, antisym33Lines, einsumTranspose, alt3]
  ring

private theorem alt3_swap (f : Nat → Nat → Nat → S) (a b c : Nat) : alt3 f b a c = - alt3 f a b c ∧ alt3 f a c b = - alt3 f a b c := by
  constructor <;> (unfold alt3; ring)

private theorem anti33 (X : List Nat → S) (i j k a b c : Nat) : antisymmetrize33 X [j, i, k, a, b, c] = - antisymmetrize33 X [i, j, k, a, b, c] ∧ antisymmetrize33 X [i, k, j, a, b, c] = - antisymmetrize33 X [i, j, k, a, b, c] ∧
    antisymmetrize33 X [i, j, k, b, a, c] = - antisymmetrize33 X [i, j, k, a, b, c] ∧ antisymmetrize33 X [i, j, k, a, c, b] = - antisymmetrize33 X [i, j, k, a, b, c] := by
  simp only [form33]
  refine ⟨(alt3_swap _ i j k).1, (alt3_swap _ i j k).2, ?_, ?_⟩
  · simp only [fun x y z => (alt3_swap (fun d e f => X [x, y, z, d, e, f]) a b c).1]
    simp only [alt3]
    ring
  · simp only [fun x y z => (alt3_swap (fun d e f => X [x, y, z, d, e, f]) a b c).2]
    simp only [alt3]
    ring

/-- the block of rank `n` of the residuals -/
private def resBlock (evalR : Nat → List (Str × NdArray S) → NdArray S) (nocc nvir : Nat) (T : List (Str × NdArray S)) (n : Nat) : NdArray S :=
  if n = 1 then evalR 1 T else if n = 2 then ⟨[nocc, nocc, nvir, nvir], antisymmetrize22 (evalR 2 T).elem⟩ else ⟨[nocc, nocc, nocc, nvir, nvir, nvir], antisymmetrize33 (evalR 3 T).elem⟩

private theorem has_resBlock (evalR : Nat → List (Str × NdArray S) → NdArray S) (T : List (Str × NdArray S)) {rank n : Nat} (hr : rank = 2 ∨ rank = 3) (h1 : 1 ≤ n) (h2 : n ≤ rank) :
    HasArray (ccResiduals evalR nocc nvir rank T) (ampKey n 0) (resBlock evalR nocc nvir T n) := by
  rcases hr with rfl | rfl
  · rcases (by omega : n = 1 ∨ n = 2) with rfl | rfl <;> rfl
  · rcases (by omega : n = 1 ∨ n = 2 ∨ n = 3) with rfl | rfl | rfl <;> rfl

private theorem resBlock_anti (evalR : Nat → List (Str × NdArray S) → NdArray S) (T : List (Str × NdArray S)) {n : Nat} (h3 : n ≤ 3) :
    (∀ pre a b post l, (pre ++ a :: b :: post).length = n → l.length = n →
      (resBlock evalR nocc nvir T n).elem ((pre ++ a :: b :: post) ++ l) = - (resBlock evalR nocc nvir T n).elem ((pre ++ b :: a :: post) ++ l)) ∧
    (∀ u pre a b post, u.length = n → (pre ++ a :: b :: post).length = n →
      (resBlock evalR nocc nvir T n).elem (u ++ (pre ++ a :: b :: post)) = - (resBlock evalR nocc nvir T n).elem (u ++ (pre ++ b :: a :: post))) := by
  constructor
  · intro pre a b post l h hl
    rcases swap_lists h h3 with ⟨rfl, rfl, rfl⟩ | ⟨rfl, ⟨c, rfl, rfl⟩ | ⟨c, rfl, rfl⟩⟩
    · match l, hl with
      | [x, y], _ => exact (anti22 _ _ _ _ _).1
    · match l, hl with
      | [x, y, z], _ => exact (anti33 _ _ _ _ _ _ _).1
    · match l, hl with
      | [x, y, z], _ => exact (anti33 _ _ _ _ _ _ _).2.1
  · intro u pre a b post hu h
    rcases swap_lists h h3 with ⟨rfl, rfl, rfl⟩ | ⟨rfl, ⟨c, rfl, rfl⟩ | ⟨c, rfl, rfl⟩⟩
    · match u, hu with
      | [x, y], _ => exact (anti22 _ _ _ _ _).2
    · match u, hu with
      | [x, y, z], _ => exact (anti33 _ _ _ _ _ _ _).2.2.1
    · match u, hu with
      | [x, y, z], _ => exact (anti33 _ _ _ _ _ _ _).2.2.2

private theorem form22 {Ω : Type} [Inhabited Ω] (X : List Ω → S) (i j a b : Ω) : antisymmetrize22 X [i, j, a, b] = X [i, j, a, b] - X [j, i, a, b] - X [i, j, b, a] + X [j, i, b, a] := by
  simp [antisymmetrize22, runTranspose, antisym22Lines, einsumTranspose]
  ring

private theorem antisym_small [NeZero (nocc + nvir)] (r : List (Fin (nocc + nvir)) → S) {n : Nat} (hn : n ≤ 1) {u l : List (Fin (nocc + nvir))} (hu : u.length = n) (hl : l.length = n) :
    antisymmetrizer 0 n (antisymmetrizer n n r) (u ++ l) = r (u ++ l) := by
  rcases (by omega : n = 0 ∨ n = 1) with rfl | rfl
  · obtain rfl := List.length_eq_zero_iff.1 hu
    obtain rfl := List.length_eq_zero_iff.1 hl
    simp [antisymmetrizer, permuted]
  · match u, l, hu, hl with
    | [x], [y], _, _ => simp [antisymmetrizer, permuted]

/-- the block of the residuals has the antisymmetrised elements -/
private theorem resBlock_value [NeZero (nocc + nvir)] {evalR : Nat → List (Str × NdArray S) → NdArray S} {T : List (Str × NdArray S)} {n : Nat} (h1 : 1 ≤ n) (h3 : n ≤ 3) {r : List (Fin (nocc + nvir)) → S}
    (h : ∀ u l : List (Fin (nocc + nvir)), u.length = n → l.length = n → (∀ x ∈ u, isOcc nocc x = true) → (∀ x ∈ l, isOcc nocc x = false) →
      (evalR n T).elem (u.map (orbPos nocc) ++ l.map (orbPos nocc)) = r (u ++ l)) {u l : List (Fin (nocc + nvir))} (hu : u.length = n) (hl : l.length = n)
    (hou : ∀ x ∈ u, isOcc nocc x = true) (hol : ∀ x ∈ l, isOcc nocc x = false) :
    (resBlock evalR nocc nvir T n).elem (u.map (orbPos nocc) ++ l.map (orbPos nocc)) = antisymmetrizer 0 n (antisymmetrizer n n r) (u ++ l) := by
  rcases (by omega : n = 1 ∨ n = 2 ∨ n = 3) with rfl | rfl | rfl
  · rw [antisym_small r (le_refl 1) hu hl]
    exact h u l hu hl hou hol
  · match u, l, hu, hl with
    | [i, j], [a, b], hu, hl =>
      have h' : ∀ i j a b : Fin (nocc + nvir), isOcc nocc i = true → isOcc nocc j = true → isOcc nocc a = false → isOcc nocc b = false →
          (evalR 2 T).elem [orbPos nocc i, orbPos nocc j, orbPos nocc a, orbPos nocc b] = r [i, j, a, b] := fun i j a b hi hj ha hb =>
        h [i, j] [a, b] rfl rfl (by simp [hi, hj]) (by simp [ha, hb])
      have hi := hou i (by simp)
      have hj := hou j (by simp)
      have ha := hol a (by simp)
      have hb := hol b (by simp)
      rw [← C81_two_two r (by simp)]
      show antisymmetrize22 (evalR 2 T).elem [orbPos nocc i, orbPos nocc j, orbPos nocc a, orbPos nocc b] = antisymmetrize22 r [i, j, a, b]
      rw [form22, form22, h' i j a b hi hj ha hb, h' j i a b hj hi ha hb, h' i j b a hi hj hb ha, h' j i b a hj hi hb ha]
  · match u, l, hu, hl with
    | [i, j, k], [a, b, c], hu, hl =>
      have h' : ∀ i j k a b c : Fin (nocc + nvir), isOcc nocc i = true → isOcc nocc j = true → isOcc nocc k = true → isOcc nocc a = false → isOcc nocc b = false → isOcc nocc c = false →
          (evalR 3 T).elem [orbPos nocc i, orbPos nocc j, orbPos nocc k, orbPos nocc a, orbPos nocc b, orbPos nocc c] = r [i, j, k, a, b, c] := fun i j k a b c hi hj hk ha hb hc =>
        h [i, j, k] [a, b, c] rfl rfl (by simp [hi, hj, hk]) (by simp [ha, hb, hc])
      have hi := hou i (by simp)
      have hj := hou j (by simp)
      have hk := hou k (by simp)
      have ha := hol a (by simp)
      have hb := hol b (by simp)
      have hc := hol c (by simp)
      rw [← C81_three_three r (by simp)]
      show antisymmetrize33 (evalR 3 T).elem [orbPos nocc i, orbPos nocc j, orbPos nocc k, orbPos nocc a, orbPos nocc b, orbPos nocc c] = antisymmetrize33 r [i, j, k, a, b, c]
      rw [form33, form33]
      have inner : ∀ x y z, isOcc nocc x = true → isOcc nocc y = true → isOcc nocc z = true →
          alt3 (fun d e f => (evalR 3 T).elem [orbPos nocc x, orbPos nocc y, orbPos nocc z, d, e, f]) (orbPos nocc a) (orbPos nocc b) (orbPos nocc c) = alt3 (fun d e f => r [x, y, z, d, e, f]) a b c := by
        intro x y z hx hy hz
        simp only [alt3]
        rw [h' x y z a b c hx hy hz ha hb hc, h' x y z a c b hx hy hz ha hc hb, h' x y z b a c hx hy hz hb ha hc, h' x y z b c a hx hy hz hb hc ha, h' x y z c a b hx hy hz hc ha hb,
          h' x y z c b a hx hy hz hc hb ha]
      have outer : ∀ (f : Nat → Nat → Nat → S) (f' : Fin (nocc + nvir) → Fin (nocc + nvir) → Fin (nocc + nvir) → S), (∀ x y z, isOcc nocc x = true → isOcc nocc y = true → isOcc nocc z = true → f (orbPos nocc x) (orbPos nocc y) (orbPos nocc z) = f' x y z) →
          alt3 f (orbPos nocc i) (orbPos nocc j) (orbPos nocc k) = alt3 f' i j k := by
        intro f f' hf
        rw [alt3, alt3, hf i j k hi hj hk, hf i k j hi hk hj, hf j i k hj hi hk, hf j k i hj hk hi, hf k i j hk hi hj, hf k j i hk hj hi]
      exact outer _ _ inner

private theorem sum_occ (f : Nat → S) : ∑ x ∈ ccDom nocc nvir 'o', f (orbPos nocc x) = ∑ i ∈ Finset.range nocc, f i := by
  refine Finset.sum_bij (fun x _ => orbPos nocc x) ?_ ?_ ?_ (fun _ _ => rfl)
  · intro x hx
    rw [Finset.mem_range]
    exact pos_occ (by simpa [ccDom] using hx)
  · intro x hx y hy h
    have hx : x.val < nocc := by simpa [ccDom, isOcc] using hx
    have hy : y.val < nocc := by simpa [ccDom, isOcc] using hy
    simp only [orbPos, if_pos hx, if_pos hy] at h
    exact Fin.ext h
  · intro i hi
    have hi := Finset.mem_range.1 hi
    exact ⟨⟨i, by omega⟩, by simp [ccDom, isOcc, hi], by simp [orbPos, hi]⟩

private theorem sum_vir (f : Nat → S) : ∑ x ∈ ccDom nocc nvir 'v', f (orbPos nocc x) = ∑ i ∈ Finset.range nvir, f i := by
  refine Finset.sum_bij (fun x _ => orbPos nocc x) ?_ ?_ ?_ (fun _ _ => rfl)
  · intro x hx
    rw [Finset.mem_range]
    exact pos_vir (by simpa [ccDom] using hx)
  · intro x hx y hy h
    have hx : ¬ x.val < nocc := by simpa [ccDom, isOcc] using hx
    have hy : ¬ y.val < nocc := by simpa [ccDom, isOcc] using hy
    simp only [orbPos, if_neg hx, if_neg hy] at h
    exact Fin.ext (by omega)
  · intro i hi
    have hi := Finset.mem_range.1 hi
    exact ⟨⟨nocc + i, by omega⟩, by simp [ccDom, isOcc], by simp [orbPos]⟩

private theorem sum_pos (n : Nat) (l : List Nat) (f : List Nat → S) : ((positions (n :: l)).map f).sum = ∑ i ∈ Finset.range n, ((positions l).map (fun x => f (i :: x))).sum := by
  rw [positions, List.map_flatMap, List.flatMap_def, List.sum_flatten, Finset.sum_range, List.map_map]
  simp only [Function.comp_def, List.map_map]
  rw [← List.sum_ofFn, List.ofFn_eq_map, ← List.map_coe_finRange_eq_range, List.map_map]
  rfl

private theorem normSq_eq {evalR : Nat → List (Str × NdArray S) → NdArray S} {T : List (Str × NdArray S)} {rank : Nat} (hr : rank = 2 ∨ rank = 3) (hs : (evalR 1 T).shape = [nocc, nvir]) :
    ccNormSq (ccResiduals evalR nocc nvir rank T) =
      .ok ((∑ i ∈ ccDom nocc nvir 'o', ∑ a ∈ ccDom nocc nvir 'v', (resBlock evalR nocc nvir T 1).elem [orbPos nocc i, orbPos nocc a] ^ 2) +
        ∑ i ∈ ccDom nocc nvir 'o', ∑ j ∈ ccDom nocc nvir 'o', ∑ a ∈ ccDom nocc nvir 'v', ∑ b ∈ ccDom nocc nvir 'v',
          (resBlock evalR nocc nvir T 2).elem [orbPos nocc i, orbPos nocc j, orbPos nocc a, orbPos nocc b] ^ 2) := by
  have g1 : getArray (ccResiduals evalR nocc nvir rank T) "ov".toList = .ok (resBlock evalR nocc nvir T 1) := by rcases hr with rfl | rfl <;> rfl
  have g2 : getArray (ccResiduals evalR nocc nvir rank T) "oovv".toList = .ok (resBlock evalR nocc nvir T 2) := by rcases hr with rfl | rfl <;> rfl
  unfold ccNormSq
  rw [g1, g2]
  show Except.ok _ = _
  congr 2
  · have s1 : (resBlock evalR nocc nvir T 1).shape = [nocc, nvir] := hs
    rw [sumSquares, s1]
    rw [sum_occ (fun i => ∑ a ∈ ccDom nocc nvir 'v', (resBlock evalR nocc nvir T 1).elem [i, orbPos nocc a] ^ 2)]
    simp only [fun i => sum_vir (nocc := nocc) (nvir := nvir) (fun a => (resBlock evalR nocc nvir T 1).elem [i, a] ^ 2)]
    simp only [sum_pos]
    simp [positions]
  · have s2 : (resBlock evalR nocc nvir T 2).shape = [nocc, nocc, nvir, nvir] := rfl
    rw [sumSquares, s2]
    generalize (resBlock evalR nocc nvir T 2).elem = X
    rw [sum_occ (fun i => ∑ j ∈ ccDom nocc nvir 'o', ∑ a ∈ ccDom nocc nvir 'v', ∑ b ∈ ccDom nocc nvir 'v', X [i, orbPos nocc j, orbPos nocc a, orbPos nocc b] ^ 2)]
    simp only [fun i => sum_occ (nocc := nocc) (nvir := nvir) (fun j => ∑ a ∈ ccDom nocc nvir 'v', ∑ b ∈ ccDom nocc nvir 'v', X [i, j, orbPos nocc a, orbPos nocc b] ^ 2)]
    simp only [fun i j => sum_vir (nocc := nocc) (nvir := nvir) (fun a => ∑ b ∈ ccDom nocc nvir 'v', X [i, j, a, orbPos nocc b] ^ 2)]
    simp only [fun i j a => sum_vir (nocc := nocc) (nvir := nvir) (fun b => X [i, j, a, b] ^ 2)]
    simp only [sum_pos]
    simp [positions]
end

section
variable {S : Type} [Field S] [CharZero S] [LinearOrder S] [IsStrictOrderedRing S] {nocc nvir : Nat} [NeZero (nocc + nvir)]

/-- one round of the loop -/
theorem cc_round {Hd invD T : List (Str × NdArray S)} {oo vv : NdArray S} {rank : Nat} (hr : rank = 2 ∨ rank = 3) (hoo : HasArray Hd "oo".toList oo) (hvv : HasArray Hd "vv".toList vv)
    (hD : ∀ n : Nat, 1 ≤ n → (n : Int) ≤ rank → ∃ X, HasArray invD (ampKey n 0) X ∧ IsInverseDenominator n nocc nvir oo vv X) {text : Nat → Str}
    {err : List (Str × NdArray S) → List (Fin (nocc + nvir)) → List (Fin (nocc + nvir)) → S}
    (hF : ∀ n ≤ rank, ∃ r, ReturnsArray (ccArrays (nocc := nocc) (nvir := nvir) Hd T) (ccDom nocc nvir) (text n) ("evaluate_residual_".toList ++ natStr n ++ "_".toList ++ natStr n)
          (if n + n = 0 then none else some (List.replicate n "nocc".toList ++ List.replicate n "nvir".toList)) r ∧
        ∀ u l : List (Fin (nocc + nvir)), u.length = n → l.length = n → (∀ x ∈ u, isOcc nocc x = true) → (∀ x ∈ l, isOcc nocc x = false) →
          |antisymmetrizer 0 n (antisymmetrizer n n r) (u ++ l) - ccElement Hd T rank u l| ≤ err T u l)
    {evalR : Nat → List (Str × NdArray S) → NdArray S} (hev : ReturnsCC (nocc := nocc) (nvir := nvir) Hd rank text evalR) (aT : IsAmplitudes nocc nvir rank T) (antiT : AntisymTensor (dictTensor (nvir := nvir) nocc T)) :
    ∃ T' ν, updateAmplitudes T (ccResiduals evalR nocc nvir rank T) invD rank = .ok T' ∧ ccNormSq (ccResiduals evalR nocc nvir rank T) = .ok ν ∧ IsAmplitudes nocc nvir rank T' ∧
      AntisymTensor (dictTensor (nvir := nvir) nocc T') ∧ CCStep nocc nvir rank Hd err T ((evalR 0 T).elem []) ν T' := by
  -- the elements of the blocks of the residuals
  have hval : ∀ n, 1 ≤ n → n ≤ rank → ∀ u l : List (Fin (nocc + nvir)), u.length = n → l.length = n → (∀ x ∈ u, isOcc nocc x = true) → (∀ x ∈ l, isOcc nocc x = false) →
      |(resBlock evalR nocc nvir T n).elem (u.map (orbPos nocc) ++ l.map (orbPos nocc)) - ccElement Hd T rank u l| ≤ err T u l := by
    intro n h1 h2 u l hu hl hou hol
    obtain ⟨r, hr1, hr2⟩ := hF n h2
    obtain ⟨r', hr3, _, hr4⟩ := hev n h2 T aT
    obtain rfl := returnsArray_unique hr1 hr3
    rw [resBlock_value h1 (by omega) hr4 hu hl hou hol]
    exact hr2 u l hu hl hou hol
  have hshape : ∀ n, 1 ≤ n → n ≤ rank → (resBlock evalR nocc nvir T n).shape = List.replicate n nocc ++ List.replicate n nvir := by
    intro n h1 h2
    rcases (by omega : n = 1 ∨ n = 2 ∨ n = 3) with rfl | rfl | rfl
    · obtain ⟨r, _, h, _⟩ := hev 1 h2 T aT
      exact h
    · rfl
    · rfl
  have hmatch : ∀ n : Nat, 1 ≤ n → n ≤ 3 → (n : Int) ≤ rank → MatchingBlocks T (ccResiduals evalR nocc nvir rank T) invD (ampKey n 0) := by
    intro n h1 h3 h2
    obtain ⟨t, ht, st⟩ := aT.blocks n h1 (by omega)
    obtain ⟨X, hX, iX⟩ := hD n h1 h2
    have sr := hshape n h1 (by omega)
    exact ⟨t, _, X, ht, has_resBlock evalR T hr h1 (by omega), hX, sr.trans iX.1.symm, st.trans sr.symm⟩
  obtain ⟨T', hT', hup, hother⟩ := C83_update T (ccResiduals evalR nocc nvir rank T) invD rank hmatch
  have aT' : IsAmplitudes nocc nvir rank T' := by
    constructor
    · intro n h1 h2
      obtain ⟨t, r, d, t', ht, _, _, ht', st, _⟩ := hup n h1 (by omega) (by omega)
      obtain ⟨t0, ht0, st0⟩ := aT.blocks n h1 h2
      have : t = t0 := by
        unfold HasArray at ht ht0
        rw [ht] at ht0
        cases ht0
        rfl
      exact ⟨t', ht', by rw [st, this, st0]⟩
    · intro key X hX
      by_cases h : ∀ n : Nat, 1 ≤ n → n ≤ 3 → (n : Int) ≤ rank → key ≠ ampKey n 0
      · exact aT.only key X ((hother key h X).1 hX)
      · push Not at h
        obtain ⟨n, h1, _, h2, hk⟩ := h
        exact ⟨n, h1, by omega, hk⟩
  -- the amplitudes after the update
  have hRb : ∀ {u l : List (Fin (nocc + nvir))}, Exc rank u l → dictTensor nocc (ccResiduals evalR nocc nvir rank T) l u = (resBlock evalR nocc nvir T u.length).elem (u.map (orbPos nocc) ++ l.map (orbPos nocc)) :=
    fun {u l} h => dictTensor_block (has_resBlock evalR T hr h.1 h.2.1) rfl h.2.2.1 h.2.2.2.1 h.2.2.2.2
  have hnew : ∀ {u l : List (Fin (nocc + nvir))}, Exc rank u l → dictTensor nocc T' l u = dictTensor nocc T l u + dictTensor nocc (ccResiduals evalR nocc nvir rank T) l u *
      ((u.map (fun x => dictTensor nocc Hd [x] [x])).sum - (l.map (fun x => dictTensor nocc Hd [x] [x])).sum)⁻¹ := by
    intro u l h
    obtain ⟨h1, h2, hl, hou, hol⟩ := h
    obtain ⟨t, r, d, t', ht, hrr, hd, ht', _, hel⟩ := hup u.length h1 (by omega) (by omega)
    obtain ⟨X, hX, iX⟩ := hD u.length h1 (by omega)
    have : d = X := by
      unfold HasArray at hd hX
      rw [hd] at hX
      cases hX
      rfl
    subst this
    rw [dictTensor_block ht' rfl hl hou hol, dictTensor_block ht rfl hl hou hol, dictTensor_block hrr rfl hl hou hol, hel]
    congr 2
    rw [iX.2]
    · congr 2
      · rw [List.map_map]
        congr 1
        refine List.map_congr_left (fun x hx => ?_)
        have hx := hou x hx
        unfold dictTensor
        rw [if_pos rfl]
        show _ = elemOf Hd [orbLabel nocc x, orbLabel nocc x] [orbPos nocc x, orbPos nocc x]
        rw [label_occ.2 hx]
        exact (elemOf_has hoo _).symm
      · rw [List.map_map]
        congr 1
        refine List.map_congr_left (fun x hx => ?_)
        have hx := hol x hx
        unfold dictTensor
        rw [if_pos rfl]
        show _ = elemOf Hd [orbLabel nocc x, orbLabel nocc x] [orbPos nocc x, orbPos nocc x]
        rw [label_vir.2 hx]
        exact (elemOf_has hvv _).symm
    · have : ∀ u : List (Fin (nocc + nvir)), (∀ x ∈ u, isOcc nocc x = true) → Within (List.replicate u.length nocc) (u.map (orbPos nocc)) := by
        intro u
        induction u with
        | nil => intro _; exact .nil
        | cons x u ih => intro h; exact .cons (pos_occ (h x (by simp))) (ih (fun y hy => h y (by simp [hy])))
      exact this u hou
    · have : ∀ u : List (Fin (nocc + nvir)), (∀ x ∈ u, isOcc nocc x = false) → Within (List.replicate u.length nvir) (u.map (orbPos nocc)) := by
        intro u
        induction u with
        | nil => intro _; exact .nil
        | cons x u ih => intro h; exact .cons (pos_vir (h x (by simp))) (ih (fun y hy => h y (by simp [hy])))
      have := this l hol
      rwa [hl] at this
  have hanti : AntisymTensor (dictTensor (nvir := nvir) nocc T') := by
    constructor
    · intro pre a b post u
      have hmem : ∀ x, x ∈ pre ++ a :: b :: post ↔ x ∈ pre ++ b :: a :: post := by intro x; simp only [List.mem_append, List.mem_cons]; tauto
      by_cases h : Exc rank u (pre ++ a :: b :: post)
      · have h' : Exc rank u (pre ++ b :: a :: post) := ⟨h.1, h.2.1, by have := h.2.2.1; simpa using this, h.2.2.2.1, fun x hx => h.2.2.2.2 x ((hmem x).2 hx)⟩
        rw [hnew h, hnew h', antiT.1, hRb h, hRb h']
        have e := (resBlock_anti (nocc := nocc) (nvir := nvir) evalR T (n := u.length) (by have := h.2.1; omega)).2 (u.map (orbPos nocc)) (pre.map (orbPos nocc)) (orbPos nocc a) (orbPos nocc b) (post.map (orbPos nocc))
          (by simp) (by have := h.2.2.1; simpa using this)
        simp only [List.map_append, List.map_cons]
        rw [e]
        simp only [List.sum_append, List.sum_cons]
        rw [add_left_comm (dictTensor nocc Hd [a] [a])]
        ring
      · have h' : ¬ Exc rank u (pre ++ b :: a :: post) := fun h' => h ⟨h'.1, h'.2.1, by have := h'.2.2.1; simpa using this, h'.2.2.2.1, fun x hx => h'.2.2.2.2 x ((hmem x).1 hx)⟩
        rw [dictTensor_zero aT' h, dictTensor_zero aT' h', neg_zero]
    · intro l pre a b post
      have hmem : ∀ x, x ∈ pre ++ a :: b :: post ↔ x ∈ pre ++ b :: a :: post := by intro x; simp only [List.mem_append, List.mem_cons]; tauto
      have hlen : (pre ++ a :: b :: post).length = (pre ++ b :: a :: post).length := by simp
      by_cases h : Exc rank (pre ++ a :: b :: post) l
      · have h' : Exc rank (pre ++ b :: a :: post) l := ⟨hlen ▸ h.1, hlen ▸ h.2.1, hlen ▸ h.2.2.1, fun x hx => h.2.2.2.1 x ((hmem x).2 hx), h.2.2.2.2⟩
        rw [hnew h, hnew h', antiT.2, hRb h, hRb h', ← hlen]
        have e := (resBlock_anti (nocc := nocc) (nvir := nvir) evalR T (n := (pre ++ a :: b :: post).length) (by have := h.2.1; omega)).1 (pre.map (orbPos nocc)) (orbPos nocc a) (orbPos nocc b) (post.map (orbPos nocc)) (l.map (orbPos nocc))
          (by simp) (by have := h.2.2.1; simpa using this)
        simp only [List.map_append, List.map_cons]
        rw [e]
        simp only [List.sum_append, List.sum_cons]
        rw [add_left_comm (dictTensor nocc Hd [a] [a])]
        ring
      · have h' : ¬ Exc rank (pre ++ b :: a :: post) l := fun h' => h ⟨hlen ▸ h'.1, hlen ▸ h'.2.1, hlen ▸ h'.2.2.1, fun x hx => h'.2.2.2.1 x ((hmem x).1 hx), h'.2.2.2.2⟩
        rw [dictTensor_zero aT' h, dictTensor_zero aT' h', neg_zero]
  have hs1 : (evalR 1 T).shape = [nocc, nvir] := hshape 1 (le_refl 1) (by omega)
  refine ⟨T', _, hT', normSq_eq hr hs1, aT', hanti, aT, antiT, ?_, fun u l => dictTensor nocc (ccResiduals evalR nocc nvir rank T) l u, ?_, ?_⟩
  · obtain ⟨r, hr1, hr2⟩ := hF 0 (by omega)
    obtain ⟨r', hr3, _, hr4⟩ := hev 0 (by omega) T aT
    obtain rfl := returnsArray_unique hr1 hr3
    have h := hr2 [] [] rfl rfl (by simp) (by simp)
    rw [antisym_small r (n := 0) (u := []) (l := []) (by omega) rfl rfl] at h
    have h' := hr4 [] [] rfl rfl (by simp) (by simp)
    have h'' : (evalR 0 T).elem [] = r [] := h'
    rw [h'']
    exact h
  · intro u l h1 h2 hl hou hol
    have hx : Exc rank u l := ⟨h1, h2, hl, hou, hol⟩
    refine ⟨?_, hnew hx⟩
    dsimp only
    rw [hRb hx]
    exact hval _ h1 h2 u l rfl hl hou hol
  · have mo : ∀ {x : Fin (nocc + nvir)}, x ∈ ccDom nocc nvir 'o' → isOcc nocc x = true := fun {x} hx => by simpa [ccDom] using hx
    have mv : ∀ {x : Fin (nocc + nvir)}, x ∈ ccDom nocc nvir 'v' → isOcc nocc x = false := fun {x} hx => by simpa [ccDom] using hx
    congr 1
    · refine Finset.sum_congr rfl (fun i hi => Finset.sum_congr rfl (fun a ha => ?_))
      dsimp only
      rw [hRb (u := [i]) (l := [a]) ⟨by simp, by simp; omega, rfl, by simpa using mo hi, by simpa using mv ha⟩]
      rfl
    · refine Finset.sum_congr rfl (fun i hi => Finset.sum_congr rfl (fun j hj => Finset.sum_congr rfl (fun a ha => Finset.sum_congr rfl (fun b hb => ?_))))
      dsimp only
      rw [hRb (u := [i, j]) (l := [a, b]) ⟨by simp, by simp; omega, rfl, by simpa using ⟨mo hi, mo hj⟩, by simpa using ⟨mv ha, mv hb⟩⟩]
      rfl

/-- the loop -/
theorem cc_loop {Hd invD : List (Str × NdArray S)} {oo vv : NdArray S} {rank : Nat} (hr : rank = 2 ∨ rank = 3) (hoo : HasArray Hd "oo".toList oo) (hvv : HasArray Hd "vv".toList vv)
    (hD : ∀ n : Nat, 1 ≤ n → (n : Int) ≤ rank → ∃ X, HasArray invD (ampKey n 0) X ∧ IsInverseDenominator n nocc nvir oo vv X) {text : Nat → Str}
    {err : List (Str × NdArray S) → List (Fin (nocc + nvir)) → List (Fin (nocc + nvir)) → S}
    (hF : ∀ T : List (Str × NdArray S), AntisymTensor (dictTensor (nvir := nvir) nocc T) → ∀ n ≤ rank,
      ∃ r, ReturnsArray (ccArrays (nocc := nocc) (nvir := nvir) Hd T) (ccDom nocc nvir) (text n) ("evaluate_residual_".toList ++ natStr n ++ "_".toList ++ natStr n)
          (if n + n = 0 then none else some (List.replicate n "nocc".toList ++ List.replicate n "nvir".toList)) r ∧
        ∀ u l : List (Fin (nocc + nvir)), u.length = n → l.length = n → (∀ x ∈ u, isOcc nocc x = true) → (∀ x ∈ l, isOcc nocc x = false) →
          |antisymmetrizer 0 n (antisymmetrizer n n r) (u ++ l) - ccElement Hd T rank u l| ≤ err T u l)
    {evalR : Nat → List (Str × NdArray S) → NdArray S} (hev : ReturnsCC (nocc := nocc) (nvir := nvir) Hd rank text evalR) : ∀ (maxiter : Nat) (T : List (Str × NdArray S)), IsAmplitudes nocc nvir rank T →
    AntisymTensor (dictTensor (nvir := nvir) nocc T) → ∃ T' log, ccLoop evalR nocc nvir rank invD maxiter T = .ok (T', log) ∧ IsAmplitudes nocc nvir rank T' ∧ AntisymTensor (dictTensor (nvir := nvir) nocc T') ∧
      CCRounds (CCStep nocc nvir rank Hd err) maxiter T T' log
  | 0, T, aT, antiT => ⟨T, [], rfl, aT, antiT, .none T⟩
  | n + 1, T, aT, antiT => by
    obtain ⟨T', ν, h1, h2, aT', antiT', hstep⟩ := cc_round hr hoo hvv hD (hF T antiT) hev aT antiT
    by_cases hν : ν < (1 / 10 ^ 8) ^ 2
    · refine ⟨T', [((evalR 0 T).elem [], ν)], ?_, aT', antiT', .last n hstep hν⟩
      simp only [ccLoop, h1, h2, bind, Except.bind]
      rw [if_pos hν]
      rfl
    · obtain ⟨T'', log, h3, aT'', antiT'', h4⟩ := cc_loop hr hoo hvv hD hF hev n T' aT' antiT'
      refine ⟨T'', ((evalR 0 T).elem [], ν) :: log, ?_, aT'', antiT'', .next hstep hν h4⟩
      simp only [ccLoop, h1, h2, h3, bind, Except.bind]
      rw [if_neg hν]
      rfl
end

section
variable {S : Type} [Field S] [CharZero S] [LinearOrder S] [IsStrictOrderedRing S]

/-- **C100**, the loops of examples/numerical/spinorbital-CCSD.ipynb (`rank = 2`) and spinorbital-CCSDT.ipynb (`rank = 3`): the calls of `op`, `gen_op`, `bch_series`, `contract`, `to_manybody_equation`,
`generate_equation` and `compute_inverse_denominators` return. If `evalR n` are what the generated functions return, then the loop runs, from zero amplitudes, without an error, and every round is a step of the
coupled-cluster iteration: the printed energy and the residuals are the matrix elements of `exp(-T) H exp(T)` for the amplitudes at the beginning of the round, up to `10^-9` of the sum of the absolute values of
the terms, and exactly if nine decimals are enough for the coefficients; the amplitudes stay antisymmetric and change by the residual divided by the difference of the orbital energies. (The orbital energies are such that
no denominator is zero, the array arithmetic is exact.) -/
theorem C100_notebook (hist : List RegOp) (hok : allOk OSI.empty hist) {fmt : Rational → Str} {cfg : WickCfg} {rank : Nat} {unique : Bool} (nocc nvir : Nat) [NeZero (nocc + nvir)] :
    let o := runReg OSI.empty hist
    o.spaces.map (fun s => (s.label, s.spaceType)) = [('o', .occupied), ('v', .unoccupied)] →
    (∀ s ∈ o.spaces, ∀ name ∈ s.indices, ∀ (c : Char) (n : Int), name ≠ c :: '_' :: '{' :: (intStr n ++ ['}'])) → PrintsNine fmt → rank = 2 ∨ rank = 3 →
    ∃ (E : OpExpr) (e : Expr) (m : List (Str × List Equation)) (text : Nat → Str), notebookHbar o (List.range' 1 rank) unique = .ok E ∧ contractExpr o cfg (Rational.ofInt 1) E 0 (2 * rank) = .ok e ∧
      e.toManybody o ['R'] = .ok m ∧ (∀ n ≤ rank, generateEquation o fmt m n n = .ok (text n)) ∧
      ∀ (Hd : List (Str × NdArray S)) (oo vv : NdArray S), HasArray Hd "oo".toList oo → HasArray Hd "vv".toList vv → oo.shape = [nocc, nocc] → vv.shape = [nvir, nvir] →
      AntisymTensor (dictTensor (nvir := nvir) nocc Hd) → (∀ n, 1 ≤ n → n ≤ rank → NonzeroEnergies n nocc nvir oo vv) →
      ∃ invD, inverseDenominators Hd rank = .ok invD ∧
        ∀ evalR : Nat → List (Str × NdArray S) → NdArray S, ReturnsCC (nocc := nocc) (nvir := nvir) Hd rank text evalR → ∀ maxiter, ∃ T' log,
          ccLoop evalR nocc nvir rank invD maxiter (ccStart nocc nvir rank) = .ok (T', log) ∧
          CCRounds (CCStep nocc nvir rank Hd (ccError e Hd)) maxiter (ccStart nocc nvir rank) T' log ∧
          ((∀ p ∈ e, p.2.den ∣ 10 ^ 9) → CCRounds (CCStep nocc nvir rank Hd (fun _ _ _ => 0)) maxiter (ccStart nocc nvir rank) T' log) := by
  intro o ho hgen hfmt hr
  obtain ⟨E, e, m, text, hE, he, hm, ht, hf⟩ := cc_functions (S := S) (nocc := nocc) (nvir := nvir) hist hok (cfg := cfg) (rank := rank) (unique := unique) ho hgen hfmt (by omega) (by omega)
  refine ⟨E, e, m, text, hE, he, hm, ht, fun Hd oo vv hoo hvv so sv aH _ => ?_⟩
  obtain ⟨invD, hi, hD⟩ := C83_denominators Hd oo vv nocc nvir hoo hvv so sv rank (by omega)
  refine ⟨invD, hi, fun evalR hev maxiter => ?_⟩
  have a0 := isAmplitudes_start (S := S) nocc nvir hr
  have s0 : AntisymTensor (dictTensor (nvir := nvir) nocc (ccStart (S := S) nocc nvir rank)) := ⟨fun pre a b post u => by simp [dictTensor_start], fun l pre a b post => by simp [dictTensor_start]⟩
  obtain ⟨T', log, h1, _, _, h2⟩ := cc_loop hr hoo hvv hD (err := ccError e Hd) (fun T aT n hn => by
    obtain ⟨r, g1, g2⟩ := hf Hd aH T aT n hn
    exact ⟨r, g1, fun u l a b c d => (g2 u l a b c d).1⟩) hev maxiter _ a0 s0
  refine ⟨T', log, h1, h2, fun hden => ?_⟩
  obtain ⟨T'', log', h1', _, _, h2'⟩ := cc_loop hr hoo hvv hD (err := fun _ _ _ => 0) (fun T aT n hn => by
    obtain ⟨r, g1, g2⟩ := hf Hd aH T aT n hn
    exact ⟨r, g1, fun u l a b c d => by rw [(g2 u l a b c d).2 hden, sub_self, abs_zero]⟩) hev maxiter _ a0 s0
  rw [h1] at h1'
  cases h1'
  exact h2'

private theorem rounds_last {α : Type} {step : α → S → S → α → Prop} {n : Nat} {T T' : α} {log : List (S × S)} (h : CCRounds step n T T' log) {q : S × S} (hq : log.getLast? = some q) : ∃ T0, step T0 q.1 q.2 T' := by
  induction h with
  | none T => cases hq
  | last n hs hν => simp only [List.getLast?_singleton, Option.some.injEq] at hq; subst hq; exact ⟨_, hs⟩
  | @next n T T' T'' E ν log hs hν hr ih =>
    cases hl : log with
    | nil =>
      subst hl
      cases hr
      simp only [List.getLast?_singleton, Option.some.injEq] at hq
      subst hq
      exact ⟨_, hs⟩
    | cons a b =>
      rw [hl, List.getLast?_cons_cons] at hq
      exact ih (by rw [hl]; exact hq)

private theorem abs_lt_of_sq {x ν ε : S} (hε : 0 ≤ ε) (h : x ^ 2 ≤ ν) (hν : ν < ε ^ 2) : |x| < ε := by
  have := lt_of_le_of_lt h hν
  exact abs_lt_of_sq_lt_sq this hε

/-- **C100**, a run that converges: if the last printed norm is below `10^-8`, then the last printed energy is, up to the error of the printed coefficients, the energy of amplitudes for which the matrix elements of `exp(-T) H exp(T)`
with the singly and doubly excited determinants are below `10^-8`, up to the same kind of error. -/
theorem C100_converged_partial {nocc nvir : Nat} [NeZero (nocc + nvir)] {rank : Nat} (hr : 2 ≤ rank) {Hd T T' : List (Str × NdArray S)} {err : List (Str × NdArray S) → List (Fin (nocc + nvir)) → List (Fin (nocc + nvir)) → S} {maxiter : Nat}
    {log : List (S × S)} (h : CCRounds (CCStep nocc nvir rank Hd err) maxiter T T' log) {E ν : S} (hl : log.getLast? = some (E, ν)) (hν : ν < (1 / 10 ^ 8) ^ 2) :
    ∃ A, IsAmplitudes nocc nvir rank A ∧ AntisymTensor (dictTensor (nvir := nvir) nocc A) ∧ |E - ccElement (nocc := nocc) (nvir := nvir) Hd A rank [] []| ≤ err A [] [] ∧
      (∀ i a : Fin (nocc + nvir), isOcc nocc i = true → isOcc nocc a = false → |ccElement Hd A rank [i] [a]| < 1 / 10 ^ 8 + err A [i] [a]) ∧
      ∀ i j a b : Fin (nocc + nvir), isOcc nocc i = true → isOcc nocc j = true → isOcc nocc a = false → isOcc nocc b = false → |ccElement Hd A rank [i, j] [a, b]| < 1 / 10 ^ 8 + err A [i, j] [a, b] := by
  obtain ⟨A, hs⟩ := rounds_last h hl
  obtain ⟨R, h1, h2⟩ := hs.residual
  refine ⟨A, hs.amplitudes, hs.antisymmetric, hs.energy, ?_, ?_⟩
  · intro i a hi ha
    have hb := (h1 [i] [a] (by simp) (by simp; omega) rfl (by simpa using hi) (by simpa using ha)).1
    have hle : R [i] [a] ^ 2 ≤ ν := by
      have h2 : ν = _ := h2
      rw [h2]
      refine le_trans ?_ (le_add_of_nonneg_right (Finset.sum_nonneg (fun _ _ => Finset.sum_nonneg (fun _ _ => Finset.sum_nonneg (fun _ _ => Finset.sum_nonneg (fun _ _ => sq_nonneg _))))))
      refine le_trans ?_ (Finset.single_le_sum (f := fun i => ∑ a ∈ ccDom nocc nvir 'v', R [i] [a] ^ 2) (fun _ _ => Finset.sum_nonneg (fun _ _ => sq_nonneg _)) (a := i) (by simpa [ccDom] using hi))
      exact Finset.single_le_sum (f := fun a => R [i] [a] ^ 2) (fun _ _ => sq_nonneg _) (by simpa [ccDom] using ha)
    have h3 := abs_lt_of_sq (by positivity) hle hν
    have h4 : |ccElement Hd A rank [i] [a]| ≤ |R [i] [a]| + |R [i] [a] - ccElement Hd A rank [i] [a]| := by
      have := abs_sub (R [i] [a]) (R [i] [a] - ccElement Hd A rank [i] [a])
      rwa [sub_sub_cancel] at this
    exact lt_of_le_of_lt h4 (add_lt_add_of_lt_of_le h3 hb)
  · intro i j a b hi hj ha hb'
    have hb := (h1 [i, j] [a, b] (by simp) (by simpa using hr) rfl (by simpa using ⟨hi, hj⟩) (by simpa using ⟨ha, hb'⟩)).1
    have hle : R [i, j] [a, b] ^ 2 ≤ ν := by
      have h2 : ν = _ := h2
      rw [h2]
      refine le_trans ?_ (le_add_of_nonneg_left (Finset.sum_nonneg (fun _ _ => Finset.sum_nonneg (fun _ _ => sq_nonneg _))))
      refine le_trans ?_ (Finset.single_le_sum (f := fun i => ∑ j ∈ ccDom nocc nvir 'o', ∑ a ∈ ccDom nocc nvir 'v', ∑ b ∈ ccDom nocc nvir 'v', R [i, j] [a, b] ^ 2)
        (fun _ _ => Finset.sum_nonneg (fun _ _ => Finset.sum_nonneg (fun _ _ => Finset.sum_nonneg (fun _ _ => sq_nonneg _)))) (a := i) (by simpa [ccDom] using hi))
      refine le_trans ?_ (Finset.single_le_sum (f := fun j => ∑ a ∈ ccDom nocc nvir 'v', ∑ b ∈ ccDom nocc nvir 'v', R [i, j] [a, b] ^ 2)
        (fun _ _ => Finset.sum_nonneg (fun _ _ => Finset.sum_nonneg (fun _ _ => sq_nonneg _))) (a := j) (by simpa [ccDom] using hj))
      refine le_trans ?_ (Finset.single_le_sum (f := fun a => ∑ b ∈ ccDom nocc nvir 'v', R [i, j] [a, b] ^ 2) (fun _ _ => Finset.sum_nonneg (fun _ _ => sq_nonneg _)) (a := a) (by simpa [ccDom] using ha))
      exact Finset.single_le_sum (f := fun b => R [i, j] [a, b] ^ 2) (fun _ _ => sq_nonneg _) (by simpa [ccDom] using hb')
    have h3 := abs_lt_of_sq (by positivity) hle hν
    have h4 : |ccElement Hd A rank [i, j] [a, b]| ≤ |R [i, j] [a, b]| + |R [i, j] [a, b] - ccElement Hd A rank [i, j] [a, b]| := by
      have := abs_sub (R [i, j] [a, b]) (R [i, j] [a, b] - ccElement Hd A rank [i, j] [a, b])
      rwa [sub_sub_cancel] at this
    exact lt_of_le_of_lt h4 (add_lt_add_of_lt_of_le h3 hb)

omit [CharZero S] [LinearOrder S] [IsStrictOrderedRing S] in
/-- **C100**, what the test for convergence does not see: the norm that the notebook for CCSDT prints and tests is the same whatever the residuals of the triple excitations are; it is that of the notebook for CCSD -/
theorem C100_triples_not_tested (nocc nvir : Nat) (evalR evalR' : Nat → List (Str × NdArray S) → NdArray S) (T : List (Str × NdArray S)) (h : ∀ n ≤ 2, evalR n T = evalR' n T) :
    ccNormSq (ccResiduals evalR nocc nvir 3 T) = ccNormSq (ccResiduals evalR' nocc nvir 3 T) ∧ ccNormSq (ccResiduals evalR nocc nvir 3 T) = ccNormSq (ccResiduals evalR nocc nvir 2 T) := by
  refine ⟨?_, rfl⟩
  show Except.ok _ = Except.ok _
  rw [h 1 (by omega), h 2 (by omega)]
end

/-! ## instances -/

section
variable {Ω R : Type} [Inhabited Ω] [DecidableEq Ω] [CommRing R] [Algebra ℚ R]

theorem runs_exists {dom : Char → Finset Ω} {arr arr' : Str → Str → List Ω → R} : ∀ {lines : List Str} {s s' : Str → List Ω → R}, Runs arr dom lines s s' → ∀ t, ∃ t', Runs arr' dom lines t t'
  | [], _, _, _, t => ⟨t, rfl⟩
  | _ :: _, _, _, ⟨L, f, h1, h2, h3, h4⟩, t => by
    obtain ⟨t', ht⟩ := runs_exists h4 (fun name x => if name = L.target then t name x + algebraMap ℚ R f * L.element arr' dom x else t name x)
    exact ⟨t', L, f, h1, h2, h3, ht⟩

/-- a function that returns for some arrays returns for all -/
theorem returnsArray_exists {dom : Char → Finset Ω} {arr : Str → Str → List Ω → R} {text name : Str} {dims : Option (List Str)} {r : List Ω → R} (h : ReturnsArray arr dom text name dims r)
    (arr' : Str → Str → List Ω → R) : ∃ r', ReturnsArray arr' dom text name dims r' := by
  obtain ⟨F, h1, h2, h3, h4, h5, s, h6, h7⟩ := h
  obtain ⟨t, ht⟩ := runs_exists (arr' := arr') h6 (fun _ _ => 0)
  exact ⟨_, F, h1, h2, h3, h4, h5, t, ht, rfl⟩
end

/-- the generated functions return for all amplitudes: there is an `evalR` as in the theorem -/
theorem returnsCC_exists {S : Type} [Field S] [CharZero S] {nocc nvir : Nat} [NeZero (nocc + nvir)] (Hd : List (Str × NdArray S)) {rank : Nat} {text : Nat → Str}
    (h : ∀ n ≤ rank, ∃ arr r, ReturnsArray (R := S) arr (ccDom nocc nvir) (text n) ("evaluate_residual_".toList ++ natStr n ++ "_".toList ++ natStr n)
      (if n + n = 0 then none else some (List.replicate n "nocc".toList ++ List.replicate n "nvir".toList)) r) :
    ∃ evalR : Nat → List (Str × NdArray S) → NdArray S, ReturnsCC (nocc := nocc) (nvir := nvir) Hd rank text evalR := by
  have h' : ∀ (n : Nat) (T : List (Str × NdArray S)), ∃ r, n ≤ rank → ReturnsArray (ccArrays (nocc := nocc) (nvir := nvir) Hd T) (ccDom nocc nvir) (text n) ("evaluate_residual_".toList ++ natStr n ++ "_".toList ++ natStr n)
      (if n + n = 0 then none else some (List.replicate n "nocc".toList ++ List.replicate n "nvir".toList)) r := by
    intro n T
    by_cases hn : n ≤ rank
    · obtain ⟨arr, r, hr⟩ := h n hn
      obtain ⟨r', hr'⟩ := returnsArray_exists hr (ccArrays Hd T)
      exact ⟨r', fun _ => hr'⟩
    · exact ⟨fun _ => 0, fun h => absurd h hn⟩
  choose r hr using h'
  let orb : Nat → Fin (nocc + nvir) := fun i => if h : i < nocc + nvir then ⟨i, h⟩ else default
  refine ⟨fun n T => ⟨List.replicate n nocc ++ List.replicate n nvir, fun x => r n T ((x.take n).map orb ++ (x.drop n).map (fun i => orb (nocc + i)))⟩, fun n hn T _ => ⟨r n T, hr n T hn, rfl, fun u l hu hl hou hol => ?_⟩⟩
  show r n T _ = r n T _
  have e1 : (u.map (orbPos nocc)).map orb = u := by
    rw [List.map_map]
    refine (List.map_congr_left (fun x hx => ?_)).trans (List.map_id u)
    have h1 : x.val < nocc := by have := hou x hx; simpa [isOcc] using this
    have h2 := x.isLt
    have h3 : x.val < nocc + nvir := x.isLt
    simp only [Function.comp, orbPos, if_pos h1, id, orb, dif_pos h3]
  have e2 : (l.map (orbPos nocc)).map (fun i => orb (nocc + i)) = l := by
    rw [List.map_map]
    refine (List.map_congr_left (fun x hx => ?_)).trans (List.map_id l)
    have h1 : ¬ x.val < nocc := by have := hol x hx; simpa [isOcc] using this
    have h2 := x.isLt
    have h3 : nocc + (x.val - nocc) = x.val := by omega
    simp only [Function.comp, orbPos, if_neg h1, id, orb, h3, dif_pos h2]
  rw [List.take_left' (by simpa using hu), List.drop_left' (by simpa using hu), e1, e2]

theorem exH_zero {l u : List (Fin (2 + 2))} (h : l.length ≠ 1) (h' : l.length ≠ 2) : dictTensor 2 exH l u = 0 := by
  unfold dictTensor
  split
  · rename_i hl
    unfold elemOf
    cases hg : getArray exH ((u ++ l).map (orbLabel 2)) with
    | error _ => rfl
    | ok X =>
      exfalso
      have hm := List.mem_of_find?_eq_some (hasArray_of hg)
      simp only [exH, List.mem_cons, List.not_mem_nil, or_false, Prod.mk.injEq] at hm
      have hlen : ((u ++ l).map (orbLabel 2)).length = l.length + l.length := by simp [hl]
      rcases hm with ⟨e, _⟩ | ⟨e, _⟩ | ⟨e, _⟩
      · rw [e] at hlen
        have : ("oo".toList : Str).length = 2 := by decide
        omega
      · rw [e] at hlen
        have : ("vv".toList : Str).length = 2 := by decide
        omega
      · rw [e] at hlen
        have : ("oovv".toList : Str).length = 4 := by decide
        omega
  · rfl

theorem exH_two : ∀ a b c d : Fin (2 + 2), dictTensor 2 exH [a, b] [c, d] = -dictTensor 2 exH [b, a] [c, d] ∧ dictTensor 2 exH [a, b] [c, d] = -dictTensor 2 exH [a, b] [d, c] := by
  decide +kernel

theorem exH_anti : AntisymTensor (dictTensor (nvir := 2) 2 exH) := by
  have hne : ∀ {l u : List (Fin (2 + 2))}, l.length ≠ u.length → dictTensor 2 exH l u = 0 := fun h => by unfold dictTensor; rw [if_neg h]
  constructor
  · intro pre a b post u
    by_cases h2 : (pre ++ a :: b :: post).length = 2
    · rcases swap_lists h2 (by omega) with ⟨_, rfl, rfl⟩ | ⟨h, _⟩
      · match u with
        | [c, d] => exact (exH_two a b c d).1
        | [] => rw [hne (by simp), hne (by simp), neg_zero]
        | [_] => rw [hne (by simp), hne (by simp), neg_zero]
        | _ :: _ :: _ :: _ => rw [hne (by simp), hne (by simp), neg_zero]
      · omega
    · rw [exH_zero (by simp; omega) h2, exH_zero (by simp; omega) (by simpa using h2), neg_zero]
  · intro l pre a b post
    by_cases hl : l.length = (pre ++ a :: b :: post).length
    · by_cases h2 : (pre ++ a :: b :: post).length = 2
      · rcases swap_lists h2 (by omega) with ⟨_, rfl, rfl⟩ | ⟨h, _⟩
        · match l, hl with
          | [c, d], _ => exact (exH_two c d a b).2
        · omega
      · have hl' : l.length = pre.length + post.length + 2 := by rw [hl]; simp; omega
        have h2' : l.length ≠ 2 := hl ▸ h2
        rw [exH_zero (by omega) h2', exH_zero (by omega) h2', neg_zero]
    · rw [hne hl, hne (by simpa using hl), neg_zero]

theorem exH_energies : ∀ n, 1 ≤ n → n ≤ 3 → NonzeroEnergies n 2 2 exOO exVV := by
  intro n h1 h3 I A hI hA
  obtain ⟨lI, mI⟩ := positions_within hI
  obtain ⟨lA, mA⟩ := positions_within hA
  have hoo : ∀ I : List Nat, (∀ i ∈ I, i < 2) → (I.map (fun i => exOO.elem [i, i])).sum ≤ -(I.length : ℚ) := by
    intro I
    induction I with
    | nil => intro _; simp
    | cons i I ih =>
      intro h
      have h1 := ih (fun j hj => h j (by simp [hj]))
      have h2 : exOO.elem [i, i] ≤ -1 := by
        have := h i (by simp)
        interval_cases i <;> decide +kernel
      simp only [List.map_cons, List.sum_cons, List.length_cons]
      push_cast
      linarith
  have hvv : ∀ I : List Nat, (∀ i ∈ I, i < 2) → (I.length : ℚ) ≤ (I.map (fun i => exVV.elem [i, i])).sum := by
    intro I
    induction I with
    | nil => intro _; simp
    | cons i I ih =>
      intro h
      have h1 := ih (fun j hj => h j (by simp [hj]))
      have h2 : 1 ≤ exVV.elem [i, i] := by
        have := h i (by simp)
        interval_cases i <;> decide +kernel
      simp only [List.map_cons, List.sum_cons, List.length_cons]
      push_cast
      linarith
  have k1 := hoo I mI
  have k2 := hvv A mA
  rw [lI] at k1
  rw [lA] at k2
  have : (1 : ℚ) ≤ n := by exact_mod_cast h1
  intro h0
  linarith

-- all hypotheses hold for CCSD and CCSDT with two occupied and two virtual orbitals: the loop runs
example (rank : Nat) (hr : rank = 2 ∨ rank = 3) : ∃ text invD evalR T' log, inverseDenominators exH rank = .ok invD ∧ ReturnsCC (nocc := 2) (nvir := 2) exH rank text evalR ∧
    ccLoop evalR 2 2 rank invD 50 (ccStart 2 2 rank) = .ok (T', log) ∧ log ≠ [] := by
  have hok : allOk OSI.empty srHistory := by refine ⟨?_, ?_, trivial⟩ <;> decide +kernel
  obtain ⟨E, e, m, text, h1, h2, h3, h4, h5⟩ := C100_notebook (S := ℚ) srHistory hok (fmt := cutAt 9) (cfg := {}) (rank := rank) (unique := true) 2 2 (by decide +kernel) srReg_names cut9_prints hr
  obtain ⟨E', e', m', text', h1', h2', h3', h4', h5'⟩ := cc_functions (S := ℚ) (nocc := 2) (nvir := 2) srHistory hok (fmt := cutAt 9) (cfg := {}) (rank := rank) (unique := true) (by decide +kernel) srReg_names cut9_prints
    (by omega) (by omega)
  rw [h1] at h1'; cases h1'
  rw [h2] at h2'; cases h2'
  rw [h3] at h3'; cases h3'
  obtain ⟨invD, hi, h6⟩ := h5 exH exOO exVV rfl rfl rfl rfl exH_anti (fun n a b => exH_energies n a (by omega))
  have s0 : AntisymTensor (dictTensor (nvir := 2) 2 (ccStart (S := ℚ) 2 2 rank)) := ⟨fun pre a b post u => by simp [dictTensor_start], fun l pre a b post => by simp [dictTensor_start]⟩
  obtain ⟨evalR, hev⟩ := returnsCC_exists (nocc := 2) (nvir := 2) exH (rank := rank) (text := text) (fun n hn => by
    obtain ⟨r, g, _⟩ := h5' exH exH_anti _ s0 n hn
    have : text n = text' n := by
      have := h4 n hn
      rw [h4' n hn] at this
      exact (Except.ok.inj this).symm
    rw [this]
    exact ⟨_, r, g⟩)
  obtain ⟨T', log, g1, g2, _⟩ := h6 evalR hev 50
  refine ⟨text, invD, evalR, T', log, hi, hev, g1, fun h0 => ?_⟩
  subst h0
  cases g2

-- the residual of the doubles of this Hamiltonian is not zero: the dictionary is not trivial
example : dictTensor (nvir := 2) 2 exH [2, 3] [0, 1] = 1 := by decide +kernel
end Wick
end Wicked
