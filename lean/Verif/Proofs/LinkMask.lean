import Verif.Proofs.LinkSum
import Mathlib.Logic.Relation
import Mathlib.Algebra.BigOperators.Group.Finset.Sigma
/-! Splitting the contractions of a product by the set of operators that are not connected to an operator
of the other kind -/
namespace Wicked
open CppLt CppEq Rational
namespace Wick

/-- a contraction takes second-quantized operators from both operators -/
def Joined (ns : Nat) (cs : CContr) (i j : Nat) : Prop := ∃ e ∈ cs, 0 < legsAt ns e i ∧ 0 < legsAt ns e j

/-- every operator connected to number `i` is of kind `τ` -/
def Isolated (τ : Operator → Bool) (ns : Nat) (ops : OperatorProduct) (cs : CContr) (i : Nat) : Prop :=
  ∀ j, Relation.ReflTransGen (Joined ns cs) i j → τ (opAt ops j) = true

theorem Joined.symm {ns : Nat} {cs : CContr} {i j : Nat} (h : Joined ns cs i j) : Joined ns cs j i := by
  obtain ⟨e, he, h1, h2⟩ := h; exact ⟨e, he, h2, h1⟩

theorem isolated_joined {τ : Operator → Bool} {ns : Nat} {ops : OperatorProduct} {cs : CContr} {i j : Nat} (h : Joined ns cs i j)
    (hi : Isolated τ ns ops cs i) : Isolated τ ns ops cs j := fun k hk => hi k (Relation.ReflTransGen.head h hk)

open Classical in
/-- which operators are isolated -/
noncomputable def mask (τ : Operator → Bool) (ns : Nat) (ops : OperatorProduct) (cs : CContr) : List Bool :=
  (List.range ops.length).map (fun i => decide (Isolated τ ns ops cs i))

theorem joined_perm {ns : Nat} {cs cs' : CContr} (h : ∀ e, e ∈ cs ↔ e ∈ cs') : Joined ns cs = Joined ns cs' := by
  funext i j
  unfold Joined
  simp only [h]

theorem mask_perm {τ : Operator → Bool} {ns : Nat} {ops : OperatorProduct} {cs cs' : CContr} (h : ∀ e, e ∈ cs ↔ e ∈ cs') :
    mask τ ns ops cs = mask τ ns ops cs' := by
  unfold mask Isolated
  rw [joined_perm h]

theorem legsAt_out {ns : Nat} {e : EContr} {i : Nat} (h : e.length ≤ i) : legsAt ns e i = 0 := by
  unfold legsAt gmAt
  rw [List.getD_eq_getElem?_getD, List.getElem?_eq_none h]
  apply List.sum_eq_zero
  intro x hx
  obtain ⟨s, _, rfl⟩ := List.mem_map.1 hx
  simp

theorem joined_lt {ns n : Nat} {cs : CContr} (hlen : ∀ e ∈ cs, e.length = n) {i j : Nat} (h : Joined ns cs i j) : i < n ∧ j < n := by
  obtain ⟨e, he, h1, h2⟩ := h
  have hl := hlen e he
  constructor
  · by_contra hc
    rw [legsAt_out (by omega)] at h1; omega
  · by_contra hc
    rw [legsAt_out (by omega)] at h2; omega

theorem legsAt_row {n : Nat} {p : List Int} (hp : IsPermOf n p) (ns : Nat) (e : EContr) {k : Nat} (hk : k < n) :
    legsAt ns (row p e) k = legsAt ns e (pAt p k) := by
  unfold legsAt row
  rw [gmAt_row hp e hk]

theorem row_length {n : Nat} {p : List Int} (hp : IsPermOf n p) (e : EContr) : (row p e).length = n := by
  unfold row; rw [List.length_map]; exact len_perm hp

theorem joined_row {ns n : Nat} {cs : CContr} {p : List Int} (hp : IsPermOf n p) {k k' : Nat} (hk : k < n) (hk' : k' < n) :
    Joined ns (cs.map (row p)) k k' ↔ Joined ns cs (pAt p k) (pAt p k') := by
  unfold Joined
  constructor
  · rintro ⟨_, he, h1, h2⟩
    obtain ⟨e, he', rfl⟩ := List.mem_map.1 he
    rw [legsAt_row hp ns e hk] at h1
    rw [legsAt_row hp ns e hk'] at h2
    exact ⟨e, he', h1, h2⟩
  · rintro ⟨e, he, h1, h2⟩
    refine ⟨row p e, List.mem_map_of_mem he, ?_, ?_⟩
    · rw [legsAt_row hp ns e hk]; exact h1
    · rw [legsAt_row hp ns e hk']; exact h2

theorem isolated_row {τ : Operator → Bool} {ns : Nat} {ops : OperatorProduct} {cs : CContr} (hlen : ∀ e ∈ cs, e.length = ops.length)
    {p c : List Int} (hp : IsPermOf ops.length p) {k : Nat} (hk : k < ops.length) :
    Isolated τ ns (graphOps ops (p, c)) (cs.map (row p)) k ↔ Isolated τ ns ops cs (pAt p k) := by
  constructor
  · intro h j hj
    have : ∃ k' < ops.length, pAt p k' = j ∧ Relation.ReflTransGen (Joined ns (cs.map (row p))) k k' := by
      induction hj with
      | refl => exact ⟨k, hk, rfl, .refl⟩
      | @tail a b _ hb ih =>
        obtain ⟨k', hk', rfl, h'⟩ := ih
        obtain ⟨k'', hk'', rfl⟩ := pAt_surj hp (joined_lt hlen hb).2
        exact ⟨k'', hk'', rfl, h'.tail ((joined_row hp hk' hk'').2 hb)⟩
    obtain ⟨k', hk', rfl, h'⟩ := this
    have := h k' h'
    rw [opAt_graphOps hp hk'] at this
    exact this
  · intro h j hj
    have : j < ops.length ∧ Relation.ReflTransGen (Joined ns cs) (pAt p k) (pAt p j) := by
      induction hj with
      | refl => exact ⟨hk, .refl⟩
      | @tail a b _ hb ih =>
        have hlt := joined_lt (n := ops.length) (by
          intro e he
          obtain ⟨e', _, rfl⟩ := List.mem_map.1 he
          exact row_length hp e') hb
        exact ⟨hlt.2, ih.2.tail ((joined_row hp hlt.1 hlt.2).1 hb)⟩
    rw [opAt_graphOps hp this.1]
    exact h _ this.2

theorem mask_length (τ : Operator → Bool) (ns : Nat) (ops : OperatorProduct) (cs : CContr) : (mask τ ns ops cs).length = ops.length := by
  simp [mask]

theorem mask_getD {τ : Operator → Bool} {ns : Nat} {ops : OperatorProduct} {cs : CContr} {i : Nat} (hi : i < ops.length) :
    (mask τ ns ops cs).getD i false = true ↔ Isolated τ ns ops cs i := by
  unfold mask
  rw [List.getD_eq_getElem?_getD, List.getElem?_map, List.getElem?_range hi]
  simp

/-- the mask of a rearranged contraction -/
theorem mask_row {τ : Operator → Bool} {ns : Nat} {ops : OperatorProduct} {cs : CContr} (hlen : ∀ e ∈ cs, e.length = ops.length)
    {p c : List Int} (hp : IsPermOf ops.length p) :
    mask τ ns (graphOps ops (p, c)) (cs.map (row p)) = p.map (fun i => (mask τ ns ops cs).getD i.toNat false) := by
  rw [map_pAt hp (fun i => (mask τ ns ops cs).getD i false)]
  unfold mask
  rw [length_graphOps hp]
  apply List.map_congr_left
  intro k hk
  have hk := List.mem_range.1 hk
  rw [List.getD_eq_getElem?_getD, List.getElem?_map, List.getElem?_range (pAt_lt hp hk)]
  simp only [Option.map_some, Option.getD_some]
  congr 1
  exact propext (isolated_row hlen hp hk)

/-! ### selecting by a mask -/

/-- the entries of `l` where the mask is `b` -/
def sel {α : Type _} (b : Bool) : List Bool → List α → List α
  | c :: m, x :: l => if c = b then x :: sel b m l else sel b m l
  | _, _ => []

theorem sel_map {α β : Type _} (b : Bool) (f : α → β) (m : List Bool) (l : List α) : sel b m (l.map f) = (sel b m l).map f := by
  induction m generalizing l with
  | nil => simp [sel]
  | cons c m ih =>
    cases l with
    | nil => rfl
    | cons x l => simp only [List.map_cons, sel, ih]; split <;> simp

theorem sel_perm {α : Type _} (m : List Bool) (l : List α) (h : m.length = l.length) : (sel true m l ++ sel false m l).Perm l := by
  induction m generalizing l with
  | nil => cases l with
    | nil => simp [sel]
    | cons => simp at h
  | cons c m ih =>
    cases l with
    | nil => simp at h
    | cons x l =>
      have ih := ih l (by simpa using h)
      cases c
      · simp only [sel, Bool.false_eq_true, if_false, if_true]
        exact List.perm_middle.trans (ih.cons x)
      · simp only [sel, if_true, Bool.true_eq_false, if_false, List.cons_append]
        exact ih.cons x

theorem sel_sublist {α : Type _} (b : Bool) (m : List Bool) (l : List α) : (sel b m l).Sublist l := by
  induction m generalizing l with
  | nil => simp [sel]
  | cons c m ih =>
    cases l with
    | nil => simp [sel]
    | cons x l =>
      simp only [sel]
      split
      · exact (ih l).cons₂ x
      · exact (ih l).cons x

theorem sel_self (b : Bool) (m : List Bool) : sel b m m = List.replicate (sel b m m).length b := by
  induction m with
  | nil => rfl
  | cons c m ih =>
    simp only [sel]
    split
    · rename_i h; rw [List.length_cons, List.replicate_succ, ← ih, h]
    · exact ih

theorem sel_length {α β : Type _} (b : Bool) (m : List Bool) (l : List α) (l' : List β) (h : l.length = l'.length) :
    (sel b m l).length = (sel b m l').length := by
  induction m generalizing l l' with
  | nil => simp [sel]
  | cons c m ih =>
    cases l with
    | nil => cases l' with
      | nil => rfl
      | cons => simp at h
    | cons x l => cases l' with
      | nil => simp at h
      | cons y l' =>
        have := ih l l' (by simpa using h)
        simp only [sel]; split <;> simp [this]

theorem sel_mem {b : Bool} {m : List Bool} {i : Int} {n : Nat} (hm : m.length = n) (h : i ∈ sel b m (iota n)) : m.getD i.toNat (!b) = b := by
  have key : ∀ (m : List Bool) (k : Nat), i ∈ sel b m ((List.range' k m.length).map (fun (k : Nat) => (k : Int))) → m.getD (i.toNat - k) (!b) = b ∧ (k : Int) ≤ i := by
    intro m
    induction m with
    | nil => intro k h; simp [sel] at h
    | cons c m ih =>
      intro k h
      rw [List.length_cons, List.range'_succ, List.map_cons, sel] at h
      split at h
      · rename_i hc
        rcases List.mem_cons.1 h with rfl | h
        · simp [hc]
        · have := ih (k + 1) h
          have e : i.toNat - k = (i.toNat - (k + 1)) + 1 := by omega
          rw [e, List.getD_cons_succ]
          exact ⟨this.1, by omega⟩
      · have := ih (k + 1) h
        have e : i.toNat - k = (i.toNat - (k + 1)) + 1 := by omega
        rw [e, List.getD_cons_succ]
        exact ⟨this.1, by omega⟩
  have := key m 0 (by rw [hm, ← List.range_eq_range']; exact h)
  simpa using this.1

/-- the permutation that moves the selected operators to the front -/
def selPerm (m : List Bool) : List Int := sel true m (iota m.length) ++ sel false m (iota m.length)

theorem selPerm_perm (m : List Bool) : IsPermOf m.length (selPerm m) := sel_perm m (iota m.length) (by simp [iota])

theorem selPerm_map {β : Type _} (m : List Bool) (f : Int → β) :
    (selPerm m).map f = sel true m ((iota m.length).map f) ++ sel false m ((iota m.length).map f) := by
  unfold selPerm
  rw [List.map_append, sel_map, sel_map]

theorem graphOps_selPerm (m : List Bool) (ops : OperatorProduct) (c : List Int) (h : m.length = ops.length) :
    graphOps ops (selPerm m, c) = sel true m ops ++ sel false m ops := by
  have : (iota m.length).map (fun i => opAt ops i.toNat) = ops := by rw [h]; exact graphOps_id ops c
  unfold graphOps
  rw [selPerm_map, this]

theorem selPerm_mask (m : List Bool) : (selPerm m).map (fun i => m.getD i.toNat false) =
    List.replicate (sel true m m).length true ++ List.replicate (sel false m m).length false := by
  have : (iota m.length).map (fun i => m.getD i.toNat false) = m := by
    unfold iota
    rw [List.map_map]
    apply List.ext_getElem
    · simp
    · intro i h1 h2; simp [h2]
  rw [selPerm_map, this, ← sel_self, ← sel_self]

theorem exchanged_selPerm {m : List Bool} {a b : Int} (h : Exchanged (selPerm m) a b) :
    m.getD a.toNat false = true ∧ m.getD b.toNat true = false := by
  obtain ⟨h1, h2⟩ := h
  have hs : ∀ b, (sel b m (iota m.length)).Pairwise (· < ·) := fun b => (iota_sorted _).sublist (sel_sublist b m _)
  unfold selPerm at h1
  obtain ⟨l1, l2, e, s1, s2⟩ := List.sublist_append_iff.1 h1
  match l1, e with
  | [], e =>
    simp only [List.nil_append] at e
    rw [← e] at s2
    have := List.pairwise_iff_forall_sublist.1 (hs false) s2
    omega
  | [x], e =>
    simp only [List.cons_append, List.nil_append, List.cons.injEq] at e
    obtain ⟨rfl, rfl⟩ := e
    exact ⟨sel_mem rfl (s1.subset (by simp)), sel_mem rfl (s2.subset (by simp))⟩
  | [x, y], e =>
    simp only [List.cons_append, List.nil_append, List.cons.injEq] at e
    obtain ⟨rfl, rfl, rfl⟩ := e
    have := List.pairwise_iff_forall_sublist.1 (hs true) s1
    omega
  | x :: y :: z :: l, e => simp at e

end Wick
end Wicked
