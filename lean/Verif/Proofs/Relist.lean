import Verif.Proofs.WickScheme
import Verif.Proofs.WickSchemes
import Verif.Proofs.SumProd
import Verif.Proofs.AdjSum
/-! The contribution of a scheme of contractions when the operators are listed in another order in which operators of the same space keep
their order: it changes by the sign of the rearrangement. -/
namespace Wicked
open CppLt CppEq Rational
namespace Wick

/-- `L'` lists the operators of `L` in another order, with the same order in every space -/
structure Relist (L L' : List Slot) : Prop where
  perm : L.Perm L'
  nodup : L.Nodup
  same : ∀ s, L.filter (fun y => decide (y.space = s)) = L'.filter (fun y => decide (y.space = s))

/-- the sign of the rearrangement -/
def relSign (L L' : List Slot) : Int := sgR (posZ L') L

theorem relSign_sq (L L' : List Slot) : relSign L L' * relSign L L' = 1 := sgR_sq _ _

theorem Relist.filter_eq {L L' : List Slot} (h : Relist L L') {s : Nat} {p : Slot → Bool} (hp : ∀ y, p y = true → y.space = s) : L'.filter p = L.filter p := by
  have key : ∀ M : List Slot, M.filter p = (M.filter (fun y => decide (y.space = s))).filter p := by
    intro M
    rw [List.filter_filter]
    apply List.filter_congr
    intro y _
    cases hy : p y with
    | false => rfl
    | true => simp [hp y hy]
  rw [key L', ← h.same s, ← key L]

theorem idx_lt_iff {L : List Slot} (hn : L.Nodup) {c a : Slot} (hc : c ∈ L) (ha : a ∈ L) (hne : c ≠ a) : L.idxOf c < L.idxOf a ↔ [c, a].Sublist L := by
  constructor
  · intro h
    have h1 := List.idxOf_lt_length_of_mem hc
    have h2 := List.idxOf_lt_length_of_mem ha
    have e1 : L[L.idxOf c] = c := List.getElem_idxOf h1
    have e2 : L[L.idxOf a] = a := List.getElem_idxOf h2
    conv_rhs => rw [← List.take_append_drop (L.idxOf a) L]
    have : [c, a] = [c] ++ [a] := rfl
    rw [this]
    apply List.Sublist.append
    · rw [List.singleton_sublist]
      rw [List.mem_take_iff_getElem]
      exact ⟨L.idxOf c, by omega, e1⟩
    · rw [List.singleton_sublist]
      rw [List.mem_drop_iff_getElem]
      exact ⟨0, by omega, by simpa using e2⟩
  · intro h
    have hs := posZ_sorted hn
    have := (hs.sublist h)
    simp only [List.pairwise_cons, List.mem_singleton, forall_eq] at this
    have hle := this.1
    unfold posZ at hle
    have : L.idxOf c ≠ L.idxOf a := fun e => hne ((List.idxOf_inj hc).1 e)
    omega

theorem Relist.idx {L L' : List Slot} (h : Relist L L') {c a : Slot} (hc : c ∈ L) (ha : a ∈ L) (hne : c ≠ a) (hs : c.space = a.space) :
    L'.idxOf c < L'.idxOf a ↔ L.idxOf c < L.idxOf a := by
  rw [idx_lt_iff h.nodup hc ha hne, idx_lt_iff (h.perm.nodup_iff.1 h.nodup) (h.perm.mem_iff.1 hc) (h.perm.mem_iff.1 ha) hne]
  have key : ∀ M : List Slot, [c, a].Sublist M ↔ [c, a].Sublist (M.filter (fun y => decide (y.space = a.space))) := by
    intro M
    constructor
    · intro h
      have := h.filter (fun y => decide (y.space = a.space))
      rwa [List.filter_cons_of_pos (by simp [hs]), List.filter_cons_of_pos (by simp), List.filter_nil] at this
    · intro h
      exact h.trans List.filter_sublist
  rw [key L, key L', h.same]

section
variable {Ω R A : Type} [Inhabited Ω] [DecidableEq Ω] [CommRing R] [Ring A] [Algebra R A]

theorem Relist.cre {L L' : List Slot} (h : Relist L L') {b : Finset Slot} {s : Nat} (hb : ∀ y ∈ b, y.space = s) : creOf L' b = creOf L b :=
  h.filter_eq (s := s) (fun y hy => hb y (by simp at hy; exact hy.1))

theorem Relist.ann {L L' : List Slot} (h : Relist L L') {b : Finset Slot} {s : Nat} (hb : ∀ y ∈ b, y.space = s) : annOf L' b = annOf L b :=
  h.filter_eq (s := s) (fun y hy => hb y (by simp at hy; exact hy.1))

theorem Relist.order {L L' : List Slot} (h : Relist L L') {b : Finset Slot} {s : Nat} (hb : ∀ y ∈ b, y.space = s) : conOrder L' b = conOrder L b := by
  unfold conOrder
  rw [h.cre hb, h.ann hb, h.filter_eq (s := s) (fun y hy => hb y (by simpa using hy))]

omit [Inhabited Ω] in
theorem Relist.val {L L' : List Slot} (h : Relist L L') {b : Finset Slot} {s : Nat} (hb : ∀ y ∈ b, y.space = s) (v : OrbSystem Ω R A) (o : OSI) (x : Slot → Ω) :
    conVal v o L' x b = conVal v o L x b := by
  unfold conVal
  rw [h.cre hb, h.ann hb]
  have hc : ∀ y ∈ creOf L b, y ∈ L ∧ y ∈ b ∧ y.cre = true := fun y hy => mem_creOf.1 hy
  have ha : ∀ y ∈ annOf L b, y ∈ L ∧ y ∈ b ∧ y.cre = false := fun y hy => mem_annOf.1 hy
  generalize creOf L b = cs at *
  generalize annOf L b = as at *
  split
  · rename_i c a
    obtain ⟨c1, c2, c3⟩ := hc c (by simp)
    obtain ⟨a1, a2, a3⟩ := ha a (by simp)
    have := h.idx c1 a1 (fun e => by rw [e, a3] at c3; cases c3) ((hb c c2).trans (hb a a2).symm)
    simp only [this]
  · rfl

theorem Relist.left {L L' : List Slot} (h : Relist L L') (S : Finset (Finset Slot)) : (leftOver L S).Perm (leftOver L' S) := h.perm.filter _

/-- the operators of the contractions and those left over are all operators -/
theorem scheme_perm {L : List Slot} (hn : L.Nodup) {S : Finset (Finset Slot)} (hsub : ∀ b ∈ S, b ⊆ L.toFinset) (hdis : ∀ b ∈ S, ∀ b' ∈ S, b ≠ b' → Disjoint b b') :
    (S.toList.flatMap (conOrder L) ++ leftOver L S).Perm L := by
  have hmem : ∀ b y, y ∈ conOrder L b ↔ y ∈ L ∧ y ∈ b := fun b y => by rw [(conOrder_perm hn b).mem_iff, mem_blk]
  rw [List.perm_ext_iff_of_nodup ?_ hn]
  · intro y
    rw [List.mem_append, List.mem_flatMap, mem_leftOver]
    constructor
    · rintro (⟨b, _, hy⟩ | hy)
      · exact ((hmem b y).1 hy).1
      · exact hy.1
    · intro hy
      by_cases hb : ∃ b ∈ S, y ∈ b
      · obtain ⟨b, hb, hyb⟩ := hb
        exact .inl ⟨b, Finset.mem_toList.2 hb, (hmem b y).2 ⟨hy, hyb⟩⟩
      · exact .inr ⟨hy, fun b hbS hyb => hb ⟨b, hbS, hyb⟩⟩
  · rw [List.nodup_append]
    refine ⟨?_, hn.filter _, ?_⟩
    · rw [List.nodup_flatMap]
      refine ⟨fun b _ => (conOrder_perm hn b).nodup_iff.2 (nodup_blk hn b), ?_⟩
      refine (Finset.nodup_toList S).imp_of_mem ?_
      intro b b' hb hb' hne y hy hy'
      exact Finset.disjoint_left.1 (hdis b (Finset.mem_toList.1 hb) b' (Finset.mem_toList.1 hb') hne) ((hmem b y).1 hy).2 ((hmem b' y).1 hy').2
    · intro y hy z hz
      obtain ⟨b, hb, hy⟩ := List.mem_flatMap.1 hy
      rintro rfl
      exact (mem_leftOver.1 hz).2 b (Finset.mem_toList.1 hb) ((hmem b y).1 hy).2

theorem ops_antisymm {v : OrbSystem Ω R A} (hac : v.Anticommute) (x : Slot → Ω) : AntisymmFun (fun l : List Slot => (l.map (fun y => v.op y.type (x y))).prod) := by
  intro pre a b post
  simp only [List.map_append, List.map_cons, List.prod_append, List.prod_cons]
  rw [← mul_assoc (v.op a.type (x a)), hac, ← mul_assoc (v.op b.type (x b)), neg_mul, mul_neg]

/-- the contribution of a scheme -/
theorem Relist.term {L L' : List Slot} (h : Relist L L') {S : Finset (Finset Slot)} (hsub : ∀ b ∈ S, b ⊆ L.toFinset) (hdis : ∀ b ∈ S, ∀ b' ∈ S, b ≠ b' → Disjoint b b')
    (hsp : ∀ b ∈ S, ∃ s, ∀ y ∈ b, y.space = s) {v : OrbSystem Ω R A} (hac : v.Anticommute) (o : OSI) (x : Slot → Ω) :
    schemeTerm v o L' x S = relSign L L' • schemeTerm v o L x S := by
  have hP := scheme_perm h.nodup hsub hdis
  have hfront : S.toList.flatMap (conOrder L') = S.toList.flatMap (conOrder L) := by
    apply List.flatMap_congr
    intro b hb
    obtain ⟨s, hs⟩ := hsp b (Finset.mem_toList.1 hb)
    exact h.order hs
  unfold schemeTerm
  rw [Finset.prod_congr rfl (fun b hb => by obtain ⟨s, hs⟩ := hsp b hb; exact h.val hs v o x), hfront, orderSign_eq, orderSign_eq]
  generalize S.toList.flatMap (conOrder L) = F at hP ⊢
  generalize (∏ b ∈ S, conVal v o L x b) = c
  -- rearrange the operators left over
  have hinj : ∀ a ∈ L, ∀ b ∈ L, posZ L' a = posZ L' b → a = b := fun a ha b _ e => posZ_inj (h.perm.mem_iff.1 ha) e
  have hinj0 : ∀ a ∈ L, ∀ b ∈ L, posZ L a = posZ L b → a = b := fun a ha b _ e => posZ_inj ha e
  have hlo : ((leftOver L S).map (posZ L')).Nodup := by
    rw [List.nodup_map_iff_inj_on (show (leftOver L S).Nodup from h.nodup.filter _)]
    intro a ha b hb e
    exact hinj a (mem_leftOver.1 ha).1 b (mem_leftOver.1 hb).1 e
  have h1 := sgR_smul_perm (h.left S) hlo _ (ops_antisymm hac x)
  have h2 : sgR (posZ L') (F ++ leftOver L' S) • ((leftOver L' S).map (fun y => v.op y.type (x y))).prod =
      sgR (posZ L') (F ++ leftOver L S) • ((leftOver L S).map (fun y => v.op y.type (x y))).prod := by
    rw [sgR_app, sgR_app, crossSg_perm (posZ L') (List.Perm.refl F) (h.left S).symm, mul_right_comm, mul_right_comm _ _ (crossSg _ _ _), mul_smul, mul_smul, mul_smul (_ * _), mul_smul, h1]
  have h3 : sgR (posZ L') (F ++ leftOver L S) = relSign L L' * sgR (posZ L) (F ++ leftOver L S) := by
    have := sgR_perm_mul (r := posZ L) (r' := posZ L') hP (fun a ha b hb => hinj0 a (hP.mem_iff.1 ha) b (hP.mem_iff.1 hb))
      (fun a ha b hb => hinj a (hP.mem_iff.1 ha) b (hP.mem_iff.1 hb))
    rw [sgR_sorted (posZ_sorted h.nodup), one_mul] at this
    unfold relSign
    rw [← this, mul_right_comm, sgR_sq, one_mul]
  have h4 : ∀ (n : Int) (y : A), (((n : Int) : R) * c) • y = c • (n • y) := by
    intro n y
    rw [mul_comm, mul_smul, Int.cast_smul_eq_zsmul]
  rw [h4, h4, h2, h3, mul_smul, smul_comm]

end
end Wick
end Wicked
