import Verif.Proofs.LinkMask
import Verif.Spec.Linked
import Verif.Props.CanonTerm
/-! A contraction in which no operator is isolated gives a linked term -/
namespace Wicked
open CppLt CppEq Rational

theorem Tensor.Shares.symm {x y : Tensor} (h : x.Shares y) : y.Shares x := by
  obtain ⟨i, h1, h2⟩ := h; exact ⟨i, h2, h1⟩

/-- linkedness is kept by a change of the tensors that keeps labels and maps the indices -/
theorem LinkedList.transfer {P : Str → Prop} {ts ts' : List Tensor} (ρ : Index → Index) (Q : Tensor → Tensor → Prop)
    (h1 : ∀ x ∈ ts, ∃ y ∈ ts', Q x y) (h2 : ∀ y ∈ ts', ∃ x ∈ ts, Q x y)
    (hl : ∀ x y, Q x y → y.label = x.label) (hi : ∀ x y, Q x y → ∀ i ∈ x.lower ++ x.upper, ρ i ∈ y.lower ++ y.upper)
    (h : LinkedList P ts) : LinkedList P ts' := by
  intro y hy
  obtain ⟨x, hx, hxy⟩ := h2 y hy
  obtain ⟨z, hz, hP, hp⟩ := h x hx
  have : ∃ z' ∈ ts', Q z z' ∧ Relation.ReflTransGen (fun a b => b ∈ ts' ∧ a.Shares b) y z' := by
    clear hP hz
    induction hp with
    | refl => exact ⟨y, hy, hxy, .refl⟩
    | @tail a b _ hb ih =>
      obtain ⟨a', ha', hQa, hp'⟩ := ih
      obtain ⟨b', hb', hQb⟩ := h1 b hb.1
      obtain ⟨i, i1, i2⟩ := hb.2
      exact ⟨b', hb', hQb, hp'.tail ⟨hb', ρ i, hi _ _ hQa i i1, hi _ _ hQb i i2⟩⟩
  obtain ⟨z', hz', hQ, hp'⟩ := this
  exact ⟨z', hz', by rw [hl _ _ hQ]; exact hP, hp'⟩

/-- all tensors are connected to one tensor, which carries an index unless it is the only one -/
def CenteredList (ts : List Tensor) : Prop :=
  (∃ y, ts = [y]) ∨ ∃ y ∈ ts, (∃ i, i ∈ y.lower ++ y.upper) ∧ ∀ x ∈ ts, Relation.ReflTransGen (fun a b => b ∈ ts ∧ a.Shares b) x y

theorem path_symm {ts : List Tensor} {x y : Tensor} (hx : x ∈ ts) (h : Relation.ReflTransGen (fun a b => b ∈ ts ∧ a.Shares b) x y) :
    y ∈ ts ∧ Relation.ReflTransGen (fun a b => b ∈ ts ∧ a.Shares b) y x := by
  induction h with
  | refl => exact ⟨hx, .refl⟩
  | @tail b c _ hbc ih => exact ⟨hbc.1, ih.2.head ⟨ih.1, hbc.2.symm⟩⟩

theorem CenteredList.connected {t : STerm} (h : CenteredList t.tensors) : t.Connected := by
  intro x hx y hy
  rcases h with ⟨c, h⟩ | ⟨c, hc, _, h⟩
  · rw [h, List.mem_singleton] at hx hy
    subst hx; subst hy; exact .refl
  · exact (h x hx).trans (path_symm hy (h y hy)).2

theorem CenteredList.transfer {ts ts' : List Tensor} (ρ : Index → Index) (Q : Tensor → Tensor → Prop)
    (h1 : ∀ x ∈ ts, ∃ y ∈ ts', Q x y) (h2 : ∀ y ∈ ts', ∃ x ∈ ts, Q x y) (hlen : ts'.length = ts.length)
    (hi : ∀ x y, Q x y → ∀ i ∈ x.lower ++ x.upper, ρ i ∈ y.lower ++ y.upper)
    (h : CenteredList ts) : CenteredList ts' := by
  rcases h with ⟨c, h⟩ | ⟨c, hc, ⟨i, hci⟩, h⟩
  · left
    rw [h] at hlen
    exact List.length_eq_one_iff.1 hlen
  right
  obtain ⟨c', hc', hQc⟩ := h1 c hc
  refine ⟨c', hc', ⟨ρ i, hi _ _ hQc i hci⟩, ?_⟩
  intro y hy
  obtain ⟨x, hx, hxy⟩ := h2 y hy
  have : ∃ z' ∈ ts', Q c z' ∧ Relation.ReflTransGen (fun a b => b ∈ ts' ∧ a.Shares b) y z' := by
    have hp := h x hx
    clear h hc hQc hci
    induction hp with
    | refl => exact ⟨y, hy, hxy, .refl⟩
    | @tail a b _ hb ih =>
      obtain ⟨a', ha', hQa, hp'⟩ := ih
      obtain ⟨b', hb', hQb⟩ := h1 b hb.1
      obtain ⟨i, i1, i2⟩ := hb.2
      exact ⟨b', hb', hQb, hp'.tail ⟨hb', ρ i, hi _ _ hQa i i1, hi _ _ hQb i i2⟩⟩
  obtain ⟨z', hz', hQ, hp'⟩ := this
  exact hp'.tail ⟨hc', ρ i, hi _ _ hQ i hci, hi _ _ hQc i hci⟩

/-- how the tensors of a renamed term correspond -/
def RenRel (ρ : Index → Index) (x y : Tensor) : Prop := y.label = x.label ∧ ∀ i ∈ x.lower ++ x.upper, ρ i ∈ y.lower ++ y.upper

theorem renamed_rel {ρ : Index → Index} {t t' : STerm} (hr : t.Renamed ρ t') :
    (∀ x ∈ t.tensors, ∃ y ∈ t'.tensors, RenRel ρ x y) ∧ (∀ y ∈ t'.tensors, ∃ x ∈ t.tensors, RenRel ρ x y) ∧
      t'.tensors.length = t.tensors.length := by
  obtain ⟨_, _, l, hl, hF⟩ := hr
  refine ⟨?_, ?_, ?_⟩
  · intro x hx
    have hx' := hl.mem_iff.2 (List.mem_map_of_mem (f := fun x : Tensor => ({ x with lower := x.lower.map ρ, upper := x.upper.map ρ } : Tensor)) hx)
    generalize t'.tensors = L at hF
    clear hl
    induction hF with
    | nil => cases hx'
    | @cons a b l ts h1 _ ih =>
      rcases List.mem_cons.1 hx' with e | e
      · refine ⟨b, by simp, ?_, ?_⟩
        · rw [h1.1, ← e]
        · intro i hi
          rw [List.mem_append, h1.2.2.2.1.mem_iff, h1.2.2.2.2.mem_iff, ← e]
          rcases List.mem_append.1 hi with hi | hi
          · exact Or.inl (List.mem_map_of_mem hi)
          · exact Or.inr (List.mem_map_of_mem hi)
      · obtain ⟨y, hy, hh⟩ := ih e
        exact ⟨y, by simp [hy], hh⟩
  · intro y hy
    have key : ∃ x ∈ l, y.label = x.label ∧ y.lower.Perm x.lower ∧ y.upper.Perm x.upper := by
      generalize t'.tensors = L at hF hy
      clear hl
      induction hF with
      | nil => cases hy
      | @cons a b l ts h1 _ ih =>
        rcases List.mem_cons.1 hy with e | e
        · subst e; exact ⟨a, by simp, h1.1, h1.2.2.2.1, h1.2.2.2.2⟩
        · obtain ⟨x, hx, hh⟩ := ih e
          exact ⟨x, by simp [hx], hh⟩
    obtain ⟨x, hx, k1, k2, k3⟩ := key
    obtain ⟨z, hz, rfl⟩ := List.mem_map.1 (hl.mem_iff.1 hx)
    refine ⟨z, hz, k1, ?_⟩
    intro i hi
    rw [List.mem_append, k2.mem_iff, k3.mem_iff]
    rcases List.mem_append.1 hi with hi | hi
    · exact Or.inl (List.mem_map_of_mem hi)
    · exact Or.inr (List.mem_map_of_mem hi)
  · rw [← hF.length_eq, hl.length_eq]
    simp [STerm.subst]

theorem LinkedList.of_renamed {P : Str → Prop} {ρ : Index → Index} {t t' : STerm} (hr : t.Renamed ρ t') (h : t.LinkedTo P) : t'.LinkedTo P :=
  LinkedList.transfer ρ (RenRel ρ) (renamed_rel hr).1 (renamed_rel hr).2.1 (fun _ _ h => h.1) (fun _ _ h => h.2) h

theorem CenteredList.of_renamed {ρ : Index → Index} {t t' : STerm} (hr : t.Renamed ρ t') (h : CenteredList t.tensors) : CenteredList t'.tensors :=
  CenteredList.transfer ρ (RenRel ρ) (renamed_rel hr).1 (renamed_rel hr).2.1 (renamed_rel hr).2.2 (fun _ _ h => h.2) h

theorem eqv_rel {t t' : STerm} (he : eqv t t' = true) :
    (∀ x ∈ t.tensors, ∃ y ∈ t'.tensors, RenRel id x y) ∧ (∀ y ∈ t'.tensors, ∃ x ∈ t.tensors, RenRel id x y) ∧
      t'.tensors.length = t.tensors.length := by
  rw [sterm_eqv] at he
  have hk : t.tensors.map Tensor.key = t'.tensors.map Tensor.key := by
    unfold STerm.key at he
    simp only [Prod.mk.injEq] at he
    exact he.1
  have hrel : ∀ x y : Tensor, x.key = y.key → RenRel id x y := by
    intro x y h
    unfold Tensor.key at h
    simp only [Prod.mk.injEq] at h
    obtain ⟨h1, h2, h3⟩ := h
    refine ⟨h1.symm, fun i hi => ?_⟩
    simp only [id]
    rw [List.mem_append] at hi ⊢
    rw [← h2, ← h3]; exact hi
  refine ⟨?_, ?_, by simpa using (congrArg List.length hk).symm⟩
  · intro x hx
    have := List.mem_map_of_mem (f := Tensor.key) hx
    rw [hk] at this
    obtain ⟨y, hy, e⟩ := List.mem_map.1 this
    exact ⟨y, hy, hrel _ _ e.symm⟩
  · intro y hy
    have := List.mem_map_of_mem (f := Tensor.key) hy
    rw [← hk] at this
    obtain ⟨x, hx, e⟩ := List.mem_map.1 this
    exact ⟨x, hx, hrel _ _ e⟩

theorem LinkedList.of_eqv {P : Str → Prop} {t t' : STerm} (he : eqv t t' = true) (h : t.LinkedTo P) : t'.LinkedTo P :=
  LinkedList.transfer id (RenRel id) (eqv_rel he).1 (eqv_rel he).2.1 (fun _ _ h => h.1) (fun _ _ h => h.2) h

theorem CenteredList.of_eqv {t t' : STerm} (he : eqv t t' = true) (h : CenteredList t.tensors) : CenteredList t'.tensors :=
  CenteredList.transfer id (RenRel id) (eqv_rel he).1 (eqv_rel he).2.1 (eqv_rel he).2.2 (fun _ _ h => h.2) h

namespace Wick

/-- the tensor of operator number `i` -/
def layAt (ns : Nat) (I : Slot → Index) (ops : OperatorProduct) (i : Nat) : Tensor :=
  ⟨(opAt ops i).label, (creSlots ns i (opAt ops i)).map I, (annSlots ns i (opAt ops i)).map I, .antisymmetric, false⟩

theorem layTensors_eq (ns : Nat) (I : Slot → Index) (ops : OperatorProduct) : ∀ k,
    layTensors ns I k ops = (List.range ops.length).map (fun i => ⟨(opAt ops i).label, (creSlots ns (k + i) (opAt ops i)).map I,
      (annSlots ns (k + i) (opAt ops i)).map I, .antisymmetric, false⟩) := by
  induction ops with
  | nil => intro k; rfl
  | cons p ops ih =>
    intro k
    rw [layTensors, ih (k + 1), List.length_cons, List.range_succ_eq_map, List.map_cons, List.map_map]
    congr 1
    apply List.map_congr_left
    intro i _
    have : k + (i + 1) = k + 1 + i := by omega
    simp only [Function.comp_apply, Nat.succ_eq_add_one, this]
    rfl

theorem mem_layTensors {ns : Nat} {I : Slot → Index} {ops : OperatorProduct} {x : Tensor} :
    x ∈ layTensors ns I 0 ops ↔ ∃ i < ops.length, x = layAt ns I ops i := by
  rw [layTensors_eq, List.mem_map]
  simp only [List.mem_range, Nat.zero_add, layAt]
  constructor
  · rintro ⟨i, h, e⟩; exact ⟨i, h, e.symm⟩
  · rintro ⟨i, h, e⟩; exact ⟨i, h, e.symm⟩

section
variable {o : OSI} {ops : OperatorProduct} {bs : List Block} {R : List Slot} (h : IsListing o ops bs R)
include h

/-- the index that a slot has in the term -/
theorem slot_index {x : Slot} (hx : x ∈ slots o.spaces.length ops) :
    applyMap (pairMap (slots o.spaces.length ops) (bs.flatMap (bPairs o))) (slotIdx (slots o.spaces.length ops) x) =
      slotIdx (slots o.spaces.length ops) (ren (bs.flatMap (bPairs o)) x) :=
  applyMap_pairMap (nodup_slots _ _) (pairs_nodup h) (pairs_mem h) hx

/-- the tensor of operator number `i` in the term of the listing -/
theorem opTensor_mem {i : Nat} (hi : i < ops.length) :
    Tensor.reindex (pairMap (slots o.spaces.length ops) (bs.flatMap (bPairs o))) (layAt o.spaces.length (slotIdx (slots o.spaces.length ops)) ops i) ∈
      (listTerm o ops bs R).tensors := by
  unfold listTerm STerm.reindex
  exact List.mem_map_of_mem (List.mem_append_left _ (mem_layTensors.2 ⟨i, hi, rfl⟩))

/-- its indices -/
theorem opTensor_idx {x : Slot} (hx : x ∈ slots o.spaces.length ops) :
    slotIdx (slots o.spaces.length ops) (ren (bs.flatMap (bPairs o)) x) ∈
      (Tensor.reindex (pairMap (slots o.spaces.length ops) (bs.flatMap (bPairs o))) (layAt o.spaces.length (slotIdx (slots o.spaces.length ops)) ops x.op)).lower ++
      (Tensor.reindex (pairMap (slots o.spaces.length ops) (bs.flatMap (bPairs o))) (layAt o.spaces.length (slotIdx (slots o.spaces.length ops)) ops x.op)).upper := by
  rw [← slot_index h hx]
  have hm := mem_slots.1 hx
  rw [List.mem_append]
  cases hc : x.cre
  · right
    exact List.mem_map_of_mem (List.mem_map_of_mem (mem_annSlots.2 ⟨rfl, hm.2.1, hc, by simpa [hc] using hm.2.2⟩))
  · left
    exact List.mem_map_of_mem (List.mem_map_of_mem (mem_creSlots.2 ⟨rfl, hm.2.1, hc, by simpa [hc] using hm.2.2⟩))

/-- the tensor of a block carries all indices of the block -/
theorem blockTensor_idx {b : Block} (hb : b ∈ bs) {B : Tensor} (hB : B ∈ bTensors o (slots o.spaces.length ops) (slotIdx (slots o.spaces.length ops)) b)
    {x : Slot} (hx : x ∈ b.flat) :
    slotIdx (slots o.spaces.length ops) (ren (bs.flatMap (bPairs o)) x) ∈
      (Tensor.reindex (pairMap (slots o.spaces.length ops) (bs.flatMap (bPairs o))) B).lower ++
      (Tensor.reindex (pairMap (slots o.spaces.length ops) (bs.flatMap (bPairs o))) B).upper := by
  rw [← slot_index h (mem_slots_block h hb hx)]
  unfold Block.flat at hx
  have key : B.lower = (b.ann.map (slotIdx (slots o.spaces.length ops))).reverse ∧ B.upper = b.cre.map (slotIdx (slots o.spaces.length ops)) := by
    unfold bTensors at hB
    split at hB
    · rw [List.mem_singleton] at hB
      subst hB
      split
      · split <;> exact ⟨rfl, rfl⟩
      · exact ⟨rfl, rfl⟩
    · cases hB
  show _ ∈ B.lower.map _ ++ B.upper.map _
  rw [key.1, key.2, List.mem_append]
  rcases List.mem_append.1 hx with hx | hx
  · right; exact List.mem_map_of_mem (List.mem_map_of_mem hx)
  · left; exact List.mem_map_of_mem (List.mem_reverse.2 (List.mem_map_of_mem (by simpa using hx)))

theorem blockTensor_mem {b : Block} (hb : b ∈ bs) {B : Tensor} (hB : B ∈ bTensors o (slots o.spaces.length ops) (slotIdx (slots o.spaces.length ops)) b) :
    Tensor.reindex (pairMap (slots o.spaces.length ops) (bs.flatMap (bPairs o))) B ∈ (listTerm o ops bs R).tensors := by
  unfold listTerm STerm.reindex
  exact List.mem_map_of_mem (List.mem_append_right _ (List.mem_flatMap.2 ⟨b, hb, hB⟩))

/-- the tensors of two operators contracted together are connected -/
theorem block_connects {b : Block} (hb : b ∈ bs) {x y : Slot} (hx : x ∈ b.flat) (hy : y ∈ b.flat) :
    Relation.ReflTransGen (fun a c => c ∈ (listTerm o ops bs R).tensors ∧ a.Shares c)
      (Tensor.reindex (pairMap (slots o.spaces.length ops) (bs.flatMap (bPairs o))) (layAt o.spaces.length (slotIdx (slots o.spaces.length ops)) ops x.op))
      (Tensor.reindex (pairMap (slots o.spaces.length ops) (bs.flatMap (bPairs o))) (layAt o.spaces.length (slotIdx (slots o.spaces.length ops)) ops y.op)) := by
  have hxs := mem_slots_block h hb hx
  have hys := mem_slots_block h hb hy
  have hyl := (mem_slots.1 hys).1
  have hok := h.blocks b hb
  obtain ⟨t, ht⟩ := blockOK_type hok
  by_cases hg : t = .general
  · subst hg
    obtain ⟨B, hB⟩ : ∃ B, B ∈ bTensors o (slots o.spaces.length ops) (slotIdx (slots o.spaces.length ops)) b := by
      unfold bTensors; rw [ht]; exact ⟨_, List.mem_singleton_self _⟩
    refine (Relation.ReflTransGen.single ⟨blockTensor_mem h hb hB, _, opTensor_idx h hxs, blockTensor_idx h hb hB hx⟩).tail
      ⟨opTensor_mem h hyl, _, blockTensor_idx h hb hB hy, opTensor_idx h hys⟩
  · obtain ⟨u, v, hu, hv⟩ := block_one hok (by rw [ht]; intro e; cases e; exact hg rfl)
    have hren : ∀ z ∈ b.flat, ren (bPairs o b) z = ren (bPairs o b) u := by
      intro z hz
      have h1 := hok.cre u (by rw [hu]; simp)
      have h2 := hok.ann v (by rw [hv]; simp)
      have hne : u ≠ v := by rintro rfl; rw [h1.1] at h2; simp at h2
      have hz' : z = u ∨ z = v := by
        unfold Block.flat at hz; rw [hu, hv] at hz; simpa using hz
      unfold bPairs
      rw [ht, hu, hv]
      cases t with
      | general => exact absurd rfl hg
      | occupied => rcases hz' with rfl | rfl <;> simp [ren, hne]
      | unoccupied => rcases hz' with rfl | rfl <;> simp [ren, hne.symm]
    refine Relation.ReflTransGen.single ⟨opTensor_mem h hyl, _, opTensor_idx h hxs, ?_⟩
    have e : ren (bs.flatMap (bPairs o)) x = ren (bs.flatMap (bPairs o)) y := by
      rw [ren_block h hb hx, ren_block h hb hy, hren x hx, hren y hy]
    rw [e]
    exact opTensor_idx h hys

theorem ops_connected {J : Nat → Nat → Prop}
    (hJ : ∀ i j, J i j → ∃ b ∈ bs, (∃ x ∈ b.flat, x.op = i) ∧ ∃ y ∈ b.flat, y.op = j) {i j : Nat} (hp : Relation.ReflTransGen J i j) :
    Relation.ReflTransGen (fun a c => c ∈ (listTerm o ops bs R).tensors ∧ a.Shares c)
      (Tensor.reindex (pairMap (slots o.spaces.length ops) (bs.flatMap (bPairs o))) (layAt o.spaces.length (slotIdx (slots o.spaces.length ops)) ops i))
      (Tensor.reindex (pairMap (slots o.spaces.length ops) (bs.flatMap (bPairs o))) (layAt o.spaces.length (slotIdx (slots o.spaces.length ops)) ops j)) := by
  induction hp with
  | refl => exact .refl
  | @tail a c _ hb ih =>
    obtain ⟨b, hbb, ⟨x, hx, rfl⟩, ⟨y, hy, rfl⟩⟩ := hJ _ _ hb
    exact ih.trans (block_connects h hbb hx hy)

/-- the tensors of the term are tensors of operators, or joined to one -/
theorem tensor_cases {X : Tensor} (hX : X ∈ (listTerm o ops bs R).tensors) :
    ∃ i < ops.length, (X = Tensor.reindex (pairMap (slots o.spaces.length ops) (bs.flatMap (bPairs o))) (layAt o.spaces.length (slotIdx (slots o.spaces.length ops)) ops i) ∨
      ∃ b ∈ bs, (∃ x ∈ b.flat, x.op = i) ∧
        X.Shares (Tensor.reindex (pairMap (slots o.spaces.length ops) (bs.flatMap (bPairs o))) (layAt o.spaces.length (slotIdx (slots o.spaces.length ops)) ops i))) := by
  have hX' : ∃ Y, X = Tensor.reindex (pairMap (slots o.spaces.length ops) (bs.flatMap (bPairs o))) Y ∧
      (Y ∈ layTensors o.spaces.length (slotIdx (slots o.spaces.length ops)) 0 ops ∨
        Y ∈ bs.flatMap (bTensors o (slots o.spaces.length ops) (slotIdx (slots o.spaces.length ops)))) := by
    unfold listTerm STerm.reindex at hX
    obtain ⟨Y, hY, rfl⟩ := List.mem_map.1 hX
    exact ⟨Y, rfl, List.mem_append.1 hY⟩
  obtain ⟨Y, rfl, hY | hY⟩ := hX'
  · obtain ⟨i, hi, rfl⟩ := mem_layTensors.1 hY
    exact ⟨i, hi, Or.inl rfl⟩
  · obtain ⟨b, hb, hB⟩ := List.mem_flatMap.1 hY
    have hok := h.blocks b hb
    obtain ⟨x, hx⟩ : ∃ x, x ∈ b.flat := by
      have := hok.pos
      cases hc : b.cre with
      | nil => rw [hc] at this; simp at this
      | cons x l => exact ⟨x, by unfold Block.flat; rw [hc]; simp⟩
    have hxs := mem_slots_block h hb hx
    exact ⟨x.op, (mem_slots.1 hxs).1, Or.inr ⟨b, hb, ⟨x, hx, rfl⟩, _, blockTensor_idx h hb hB hx, opTensor_idx h hxs⟩⟩

/-- the term of a listing: enough that every operator is connected to one with a label in `P` -/
theorem listTerm_linked {P : Str → Prop} (J : Nat → Nat → Prop)
    (hJ : ∀ i j, J i j → ∃ b ∈ bs, (∃ x ∈ b.flat, x.op = i) ∧ ∃ y ∈ b.flat, y.op = j)
    (hP : ∀ i < ops.length, ∃ j < ops.length, P (opAt ops j).label ∧ Relation.ReflTransGen J i j) :
    (listTerm o ops bs R).LinkedTo P := by
  intro X hX
  obtain ⟨i, hi, hXi⟩ := tensor_cases h hX
  obtain ⟨j, hj, hPj, hp⟩ := hP i hi
  refine ⟨_, opTensor_mem h hj, hPj, ?_⟩
  rcases hXi with rfl | ⟨b, hb, _, hs⟩
  · exact ops_connected h hJ hp
  · exact (ops_connected h hJ hp).head ⟨opTensor_mem h hi, hs⟩

/-- the term of a listing: enough that every operator is connected to one operator -/
theorem listTerm_centered (J : Nat → Nat → Prop)
    (hJ : ∀ i j, J i j → ∃ b ∈ bs, (∃ x ∈ b.flat, x.op = i) ∧ ∃ y ∈ b.flat, y.op = j) {j : Nat} (hj : j < ops.length)
    (hP : ∀ i < ops.length, Relation.ReflTransGen J i j) : CenteredList (listTerm o ops bs R).tensors := by
  by_cases hz : ∃ x ∈ slots o.spaces.length ops, x.op = j
  · obtain ⟨z, hz, rfl⟩ := hz
    refine Or.inr ⟨_, opTensor_mem h hj, ⟨_, opTensor_idx h hz⟩, ?_⟩
    intro X hX
    obtain ⟨i, hi, hXi⟩ := tensor_cases h hX
    rcases hXi with rfl | ⟨b, hb, _, hs⟩
    · exact ops_connected h hJ (hP i hi)
    · exact (ops_connected h hJ (hP i hi)).head ⟨opTensor_mem h hi, hs⟩
  · have hall : ∀ i < ops.length, i = j := by
      intro i hi
      rcases Relation.ReflTransGen.cases_tail (hP i hi) with e | ⟨k, _, hk⟩
      · exact e.symm
      · obtain ⟨b, hb, _, ⟨y, hy, e⟩⟩ := hJ _ _ hk
        exact absurd ⟨y, mem_slots_block h hb hy, e⟩ hz
    have hbs : bs = [] := by
      rw [List.eq_nil_iff_forall_not_mem]
      intro b hb
      have hok := h.blocks b hb
      have := hok.pos
      cases hc : b.cre with
      | nil => rw [hc] at this; simp at this
      | cons x l =>
        have hx : x ∈ b.flat := by unfold Block.flat; rw [hc]; simp
        have hxs := mem_slots_block h hb hx
        exact hz ⟨x, hxs, hall _ (mem_slots.1 hxs).1⟩
    have hl1 : ops.length = 1 := by
      have := hall 0 (by omega)
      by_contra hne
      have := hall 1 (by omega)
      omega
    left
    rw [← List.length_eq_one_iff]
    unfold listTerm STerm.reindex
    rw [hbs]
    simp only [List.flatMap_nil, List.append_nil, List.length_map]
    rw [layTensors_eq]
    simp [hl1]
end

/-- joined operators have slots in one block -/
theorem joined_block {o : OSI} {n : Nat} {cs : CContr} (hev : ∀ e ∈ cs, Evaluable o n e) {i j : Nat} (hJ : Joined o.spaces.length cs i j) :
    ∀ pre, ∃ b ∈ blocksFrom o.spaces.length n pre cs, (∃ x ∈ b.flat, x.op = i) ∧ ∃ y ∈ b.flat, y.op = j := by
  have key : ∀ (e : EContr) (pre : List EContr), Evaluable o n e → ∀ i, 0 < legsAt o.spaces.length e i →
      ∃ x ∈ (⟨espace o.spaces.length e, blkCre n (espace o.spaces.length e) pre e, blkAnn n (espace o.spaces.length e) pre e⟩ : Block).flat, x.op = i := by
    intro e pre hE i hi
    have hin : i < n := by
      by_contra hc
      rw [legsAt_out (by rw [evaluable_len hE]; omega)] at hi; omega
    obtain ⟨s, c, a, k, hs, hLg, hcn, hc, ha, hk, hk1⟩ := hE
    obtain ⟨_, hsp⟩ := legs_spaces hs hLg hcn (by omega)
    rw [hsp]
    rw [legsAt_legs hs hLg hin] at hi
    have h1 := hLg.2 i hin s
    rw [if_pos rfl, if_pos rfl] at h1
    have hn := hcn i hin
    unfold Block.flat
    by_cases hci : 0 < c i
    · refine ⟨⟨i, s, true, (takenCre pre i s).toNat⟩, List.mem_append_left _ (mem_blkCre.2 ⟨hin, rfl, rfl, le_refl _, ?_⟩), rfl⟩
      simp only; rw [h1.1]; omega
    · refine ⟨⟨i, s, false, (takenAnn pre i s).toNat⟩, ?_, rfl⟩
      have : (⟨i, s, false, (takenAnn pre i s).toNat⟩ : Slot) ∈ blkAnn n s pre e := by
        refine mem_blkAnn.2 ⟨hin, rfl, rfl, le_refl _, ?_⟩
        simp only; rw [h1.2]; omega
      exact List.mem_append_right _ (by simpa using this)
  obtain ⟨e, he, h1, h2⟩ := hJ
  induction cs with
  | nil => cases he
  | cons e' cs ih =>
    intro pre
    rw [blocksFrom]
    rcases List.mem_cons.1 he with rfl | he'
    · exact ⟨_, List.mem_cons_self, key e pre (hev e (by simp)) i h1, key e pre (hev e (by simp)) j h2⟩
    · obtain ⟨b, hb, hh⟩ := ih (fun e he => hev e (by simp [he])) he' (pre ++ [e'])
      exact ⟨b, List.mem_cons_of_mem _ hb, hh⟩

/-- a contraction without isolated operators: the term of a listing in which every operator is connected to one not of kind `τ` -/
theorem processOne_shape {o : OSI} {cfg : WickCfg} {ops : OperatorProduct} {cs : CContr} (h8 : o.spaces.length ≤ 8)
    (hv : ∀ p ∈ ops, p.Valid o.spaces.length) (hE : EvalList o ops cs) {τ : Operator → Bool}
    (hI : ∀ i < ops.length, ¬ Isolated τ o.spaces.length ops cs i)
    {f : Rational} {r} (h : processOne o cfg ops cs f = .ok r) :
    ∃ ops' bs R J ρ, ops'.Perm ops ∧ IsListing o ops' bs R ∧
      (∀ i j, J i j → ∃ b ∈ bs, (∃ x ∈ b.flat, x.op = i) ∧ ∃ y ∈ b.flat, y.op = j) ∧
      (∀ i < ops'.length, ∃ j < ops'.length, τ (opAt ops' j) = false ∧ Relation.ReflTransGen J i j) ∧
      (listTerm o ops' bs R).Renamed ρ r.1 := by
  obtain ⟨g, s, hA, _, hE', hl, he⟩ := processOne_eq (cfg := cfg) h8 hv hE
  rw [he f] at h
  rcases g with ⟨p, c⟩
  cases hc : (listTerm o (graphOps ops (p, c)) (blocksOf o (graphOps ops (p, c)) (graphContr cs (p, c))) (restOps o (graphOps ops (p, c)) (graphContr cs (p, c)))).canonicalize o with
  | error e => rw [hc] at h; simp [bind, Except.bind] at h
  | ok t =>
    rw [hc] at h
    simp only [bind, Except.bind, pure, Except.pure, Except.ok.injEq] at h
    subst h
    obtain ⟨t', ft⟩ := t
    have hlen : ∀ e ∈ cs, e.length = ops.length := fun e he => evaluable_len (hE.ev e he)
    obtain ⟨ρ, tensors, ts, hsh⟩ := canonicalize_shape hc
    refine ⟨_, _, _, Joined o.spaces.length (graphContr cs (p, c)), ρ, ?_, hl, ?_, ?_, canonicalize_renamed hsh⟩
    · have h0 : (graphOps ops (p, c)).Perm (graphOps ops (iota ops.length, c)) := hA.ops.map _
      rw [graphOps_id] at h0
      exact h0
    · intro i j hij
      exact joined_block hE'.ev hij []
    · intro i hi
      rw [length_graphOps hA.ops] at hi
      have hn : ¬ Isolated τ o.spaces.length (graphOps ops (p, c)) (cs.map (row p)) i := by
        rw [isolated_row hlen hA.ops hi]
        exact hI _ (pAt_lt hA.ops hi)
      have hJ : Joined o.spaces.length (cs.map (row p)) = Joined o.spaces.length (graphContr cs (p, c)) :=
        joined_perm (fun e => (graphContr_perm (p := p) hA.contr).mem_iff.symm)
      unfold Isolated at hn
      rw [hJ] at hn
      push Not at hn
      obtain ⟨j, hj, hτ⟩ := hn
      have hjlt : j < (graphOps ops (p, c)).length := by
        rcases Relation.ReflTransGen.cases_tail hj with e | ⟨k, _, hk⟩
        · rw [e, length_graphOps hA.ops]; exact hi
        · exact (joined_lt (fun e he => evaluable_len (hE'.ev e he)) hk).2
      exact ⟨j, hjlt, by simpa using hτ, hj⟩

/-- **no isolated operator: the term is linked** -/
theorem processOne_linked {o : OSI} {cfg : WickCfg} {ops : OperatorProduct} {cs : CContr} (h8 : o.spaces.length ≤ 8)
    (hv : ∀ p ∈ ops, p.Valid o.spaces.length) (hE : EvalList o ops cs) {τ : Operator → Bool} {P : Str → Prop}
    (hP : ∀ x ∈ ops, τ x = false → P x.label) (hI : ∀ i < ops.length, ¬ Isolated τ o.spaces.length ops cs i)
    {f : Rational} {r} (h : processOne o cfg ops cs f = .ok r) : r.1.LinkedTo P := by
  obtain ⟨ops', bs, R, J, ρ, hp, hl, hJ, hc, hr⟩ := processOne_shape h8 hv hE hI h
  refine LinkedList.of_renamed hr (listTerm_linked hl J hJ ?_)
  intro i hi
  obtain ⟨j, hj, hτ, hh⟩ := hc i hi
  exact ⟨j, hj, hP _ (hp.mem_iff.1 (opAt_mem hj)) hτ, hh⟩

theorem one_position {τ : Operator → Bool} {ops : OperatorProduct} (hc : ops.countP (fun x => !τ x) = 1) {i j : Nat} (hi : i < ops.length)
    (hj : j < ops.length) (h1 : τ (opAt ops i) = false) (h2 : τ (opAt ops j) = false) : i = j := by
  induction ops generalizing i j with
  | nil => simp at hi
  | cons x ops ih =>
    rw [List.countP_cons] at hc
    have pos : ∀ k, k < ops.length → τ (opAt ops k) = false → 0 < ops.countP (fun x => !τ x) := by
      intro k hk h
      rw [List.countP_pos_iff]
      exact ⟨_, opAt_mem hk, by simp [h]⟩
    cases i with
    | zero =>
      cases j with
      | zero => rfl
      | succ j =>
        have h1 : τ x = false := h1
        have := pos j (by simpa using hj) h2
        simp only [h1, Bool.not_false, if_true] at hc
        omega
    | succ i =>
      cases j with
      | zero =>
        have h2 : τ x = false := h2
        have := pos i (by simpa using hi) h1
        simp only [h2, Bool.not_false, if_true] at hc
        omega
      | succ j =>
        have := pos i (by simpa using hi) h1
        have hx : ops.countP (fun x => !τ x) = 1 := by split at hc <;> omega
        rw [ih hx (by simpa using hi) (by simpa using hj) h1 h2]

/-- **no isolated operator and one operator not of kind `τ`: the term is connected** -/
theorem processOne_centered {o : OSI} {cfg : WickCfg} {ops : OperatorProduct} {cs : CContr} (h8 : o.spaces.length ≤ 8)
    (hv : ∀ p ∈ ops, p.Valid o.spaces.length) (hE : EvalList o ops cs) {τ : Operator → Bool}
    (hone : ops.countP (fun x => !τ x) = 1) (hI : ∀ i < ops.length, ¬ Isolated τ o.spaces.length ops cs i)
    {f : Rational} {r} (h : processOne o cfg ops cs f = .ok r) : CenteredList r.1.tensors := by
  obtain ⟨ops', bs, R, J, ρ, hp, hl, hJ, hc, hr⟩ := processOne_shape h8 hv hE hI h
  refine CenteredList.of_renamed hr ?_
  have hone' : ops'.countP (fun x => !τ x) = 1 := by rw [hp.countP_eq]; exact hone
  have hlen : 0 < ops'.length := by
    have := List.countP_le_length (p := fun x => !τ x) (l := ops')
    omega
  obtain ⟨j0, hj0, hτ0, _⟩ := hc 0 hlen
  refine listTerm_centered hl J hJ hj0 ?_
  intro i hi
  obtain ⟨j, hj, hτ, hh⟩ := hc i hi
  rw [one_position hone' hj0 hj hτ0 hτ]; exact hh

end Wick
end Wicked
