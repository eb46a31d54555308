import Verif.Model.Order
import Mathlib.Tactic.Linarith
import Mathlib.Data.List.Perm.Basic
import Mathlib.Data.List.Pairwise
namespace Wicked
open CppLt CppEq

/-- `lt` is a strict weak order: the precondition of `std::sort` and `std::map`. -/
class StrictWeak (α : Type _) [CppLt α] : Prop where
  irrefl : ∀ a : α, lt a a = false
  trans : ∀ a b c : α, lt a b = true → lt b c = true → lt a c = true
  /-- incomparability is transitive -/
  incomp : ∀ a b c : α, lt a b = false → lt b a = false → lt b c = false → lt c b = false →
    lt a c = false ∧ lt c a = false

/-- neither less: the equivalence `std::map` uses to identify keys -/
def eqv {α : Type _} [CppLt α] (a b : α) : Bool := !lt a b && !lt b a

/-- `operator==` is the equivalence induced by `operator<` -/
class EqvIsEq (α : Type _) [CppLt α] [CppEq α] : Prop where
  iff : ∀ a b : α, eq a b = true ↔ (lt a b = false ∧ lt b a = false)

/-- `lt` is total: incomparable elements are equal -/
class StrictTotal (α : Type _) [CppLt α] : Prop extends StrictWeak α where
  conn : ∀ a b : α, lt a b = false → lt b a = false → a = b

section
variable {α : Type _} [CppLt α] [StrictWeak α]

omit [StrictWeak α] in
theorem eqv_iff {a b : α} : eqv a b = true ↔ lt a b = false ∧ lt b a = false := by
  simp [eqv]

theorem lt_asymm {a b : α} (h : lt a b = true) : lt b a = false := by
  by_contra h'
  have := StrictWeak.trans a b a h (by simpa using h')
  rw [StrictWeak.irrefl] at this; cases this

theorem eqv_refl (a : α) : eqv a a = true := by simp [eqv, StrictWeak.irrefl]
theorem eqv_symm {a b : α} (h : eqv a b = true) : eqv b a = true := by
  rw [eqv_iff] at *; exact ⟨h.2, h.1⟩
theorem eqv_comm (a b : α) : eqv a b = eqv b a := by simp [eqv, Bool.and_comm]
theorem eqv_trans {a b c : α} (h : eqv a b = true) (h' : eqv b c = true) : eqv a c = true := by
  rw [eqv_iff] at *
  exact StrictWeak.incomp a b c h.1 h.2 h'.1 h'.2

theorem lt_congr_left {a a' b : α} (h : eqv a a' = true) : lt a b = lt a' b := by
  have key : ∀ {a a' : α}, eqv a a' = true → lt a b = true → lt a' b = true := by
    intro a a' h hab
    by_contra hn
    have hn : lt a' b = false := by simpa using hn
    rw [eqv_iff] at h
    rcases hc : lt b a' with _ | _
    · have := StrictWeak.incomp a a' b h.1 h.2 hn hc
      rw [this.1] at hab; cases hab
    · have := StrictWeak.trans a b a' hab hc
      rw [h.1] at this; cases this
  rcases hab : lt a b with _ | _
  · rcases hab' : lt a' b with _ | _
    · rfl
    · rw [key (eqv_symm h) hab'] at hab; cases hab
  · exact (key h hab).symm

theorem lt_congr_right {a b b' : α} (h : eqv b b' = true) : lt a b = lt a b' := by
  have key : ∀ {b b' : α}, eqv b b' = true → lt a b = true → lt a b' = true := by
    intro b b' h hab
    by_contra hn
    have hn : lt a b' = false := by simpa using hn
    rw [eqv_iff] at h
    rcases hc : lt b' a with _ | _
    · have := StrictWeak.incomp a b' b hn hc h.2 h.1
      rw [this.1] at hab; cases hab
    · have := StrictWeak.trans b' a b hc hab
      rw [h.2] at this; cases this
  rcases hab : lt a b with _ | _
  · rcases hab' : lt a b' with _ | _
    · rfl
    · rw [key (eqv_symm h) hab'] at hab; cases hab
  · exact (key h hab).symm

theorem eqv_congr_left {a a' b : α} (h : eqv a a' = true) : eqv a b = eqv a' b := by
  unfold eqv; rw [lt_congr_left h, lt_congr_right h]
theorem eqv_congr_right {a b b' : α} (h : eqv b b' = true) : eqv a b = eqv a b' := by
  unfold eqv; rw [lt_congr_left h, lt_congr_right h]

theorem not_lt_trans {a b c : α} (h : lt b a = false) (h' : lt c b = false) : lt c a = false := by
  by_contra hn
  have hn : lt c a = true := by simpa using hn
  rcases hba : lt a b with _ | _
  · have : eqv a b = true := eqv_iff.2 ⟨hba, h⟩
    rw [lt_congr_right this] at hn; rw [h'] at hn; cases hn
  · have := StrictWeak.trans c a b hn hba
    rw [h'] at this; cases this

/-- two-out-of-three: `a<b`, `a~b` or `b<a` -/
theorem lt_trichotomy (a b : α) : lt a b = true ∨ eqv a b = true ∨ lt b a = true := by
  rcases h : lt a b with _ | _
  · rcases h' : lt b a with _ | _
    · exact Or.inr (Or.inl (eqv_iff.2 ⟨h, h'⟩))
    · simp
  · simp
end

theorem eqv_eq {α : Type _} [CppLt α] [StrictTotal α] {a b : α} : eqv a b = true ↔ a = b := by
  rw [eqv_iff]
  constructor
  · intro h; exact StrictTotal.conn a b h.1 h.2
  · rintro rfl; exact ⟨StrictWeak.irrefl a, StrictWeak.irrefl a⟩

theorem cppEq_iff {α : Type _} [CppLt α] [CppEq α] [EqvIsEq α] {a b : α} :
    CppEq.eq a b = true ↔ eqv a b = true := by
  rw [eqv_iff]; exact EqvIsEq.iff a b

/-! ## Instances -/

instance : StrictTotal Int where
  irrefl a := by simp [lt]
  trans a b c := by simp [lt]; omega
  incomp a b c := by simp [lt]; omega
  conn a b := by simp [lt]; omega
instance : EqvIsEq Int where
  iff a b := by simp [lt, eq]; omega

instance : StrictTotal Bool where
  irrefl a := by cases a <;> rfl
  trans a b c := by cases a <;> cases b <;> cases c <;> decide
  incomp a b c := by cases a <;> cases b <;> cases c <;> decide
  conn a b := by cases a <;> cases b <;> decide
instance : EqvIsEq Bool where
  iff a b := by cases a <;> cases b <;> decide

theorem char_toNat_inj {a b : Char} (h : a.toNat = b.toNat) : a = b := by
  apply Char.ext; apply UInt32.toNat_inj.mp; exact h

instance : StrictTotal Char where
  irrefl a := by simp [lt]
  trans a b c := by simp only [lt, decide_eq_true_eq]; omega
  incomp a b c := by simp only [lt, decide_eq_false_iff_not]; omega
  conn a b := by
    simp only [lt, decide_eq_false_iff_not]; intro h h'; exact char_toNat_inj (by omega)
instance : EqvIsEq Char where
  iff a b := by
    simp only [lt, eq, decide_eq_false_iff_not, decide_eq_true_eq]
    constructor
    · rintro rfl; simp
    · intro h; exact char_toNat_inj (by omega)

/-- pull a strict weak order back along a function -/
theorem StrictWeak.pullback {α β : Type _} [CppLt α] [CppLt β] [StrictWeak β] (f : α → β)
    (h : ∀ a b : α, lt a b = lt (f a) (f b)) : StrictWeak α where
  irrefl a := by rw [h]; exact StrictWeak.irrefl _
  trans a b c := by rw [h, h, h]; exact StrictWeak.trans _ _ _
  incomp a b c := by rw [h, h, h, h, h, h]; exact StrictWeak.incomp _ _ _

theorem StrictTotal.pullback {α β : Type _} [CppLt α] [CppLt β] [StrictTotal β] (f : α → β)
    (hf : Function.Injective f) (h : ∀ a b : α, lt a b = lt (f a) (f b)) : StrictTotal α where
  toStrictWeak := StrictWeak.pullback f h
  conn a b := by rw [h, h]; intro h1 h2; exact hf (StrictTotal.conn _ _ h1 h2)

section pair
variable {α β : Type _} [CppLt α] [CppLt β]

theorem pair_lt (x y : α × β) : lt x y = (lt x.1 y.1 || (!lt y.1 x.1 && lt x.2 y.2)) := rfl

theorem pair_eqv [StrictWeak α] [StrictWeak β] (x y : α × β) :
    eqv x y = true ↔ eqv x.1 y.1 = true ∧ eqv x.2 y.2 = true := by
  simp only [eqv_iff, pair_lt]
  rcases h1 : lt x.1 y.1 <;> rcases h2 : lt y.1 x.1 <;> simp

instance [StrictWeak α] [StrictWeak β] : StrictWeak (α × β) where
  irrefl a := by simp [pair_lt, StrictWeak.irrefl]
  trans a b c := by
    simp only [pair_lt, Bool.or_eq_true, Bool.and_eq_true, Bool.not_eq_true']
    rintro (h | ⟨h, h2⟩) (h' | ⟨h', h2'⟩)
    · exact Or.inl (StrictWeak.trans _ _ _ h h')
    · left
      by_contra hn
      have := not_lt_trans (a := c.1) (b := a.1) (c := b.1)
      rcases hcb : lt b.1 c.1 with _ | _
      · rw [lt_congr_right (eqv_iff.2 ⟨hcb, h'⟩)] at h; exact hn h
      · exact hn (StrictWeak.trans _ _ _ h hcb)
    · left
      by_contra hn
      rcases hab : lt a.1 b.1 with _ | _
      · rw [← lt_congr_left (eqv_iff.2 ⟨hab, h⟩)] at h'; exact hn h'
      · exact hn (StrictWeak.trans _ _ _ hab h')
    · right
      exact ⟨not_lt_trans h h', StrictWeak.trans _ _ _ h2 h2'⟩
  incomp a b c h1 h2 h3 h4 := by
    have hab : eqv a b = true := eqv_iff.2 ⟨h1, h2⟩
    have hbc : eqv b c = true := eqv_iff.2 ⟨h3, h4⟩
    rw [pair_eqv] at hab hbc
    have : eqv a c = true := (pair_eqv a c).2 ⟨eqv_trans hab.1 hbc.1, eqv_trans hab.2 hbc.2⟩
    exact eqv_iff.1 this

instance [StrictTotal α] [StrictTotal β] : StrictTotal (α × β) where
  conn a b h1 h2 := by
    have := (pair_eqv a b).1 (eqv_iff.2 ⟨h1, h2⟩)
    exact Prod.ext (eqv_eq.1 this.1) (eqv_eq.1 this.2)

instance [CppEq α] [CppEq β] [StrictWeak α] [StrictWeak β] [EqvIsEq α] [EqvIsEq β] :
    EqvIsEq (α × β) where
  iff a b := by
    rw [← eqv_iff, pair_eqv, ← cppEq_iff, ← cppEq_iff]
    show (eq a.1 b.1 && eq a.2 b.2) = true ↔ _
    simp
end pair

section list
variable {α : Type _} [CppLt α]

theorem list_lt (l l' : List α) : lt l l' = lexLt l l' := rfl

theorem lexLt_cons (a b : α) (l l' : List α) :
    lexLt (a :: l) (b :: l') = (lt a b || (!lt b a && lexLt l l')) := by
  rw [lexLt]; rcases lt a b <;> rcases lt b a <;> simp

theorem lexLt_nil_left (l : List α) : lexLt l [] = false := by cases l <;> rfl

theorem lexLt_irrefl [StrictWeak α] (l : List α) : lexLt l l = false := by
  induction l with
  | nil => rfl
  | cons a l ih => rw [lexLt_cons]; simp [StrictWeak.irrefl, ih]

theorem lexLt_trans [StrictWeak α] : ∀ (a b c : List α), lexLt a b = true → lexLt b c = true →
    lexLt a c = true
  | [], _, [], h1, h2 => by rw [lexLt_nil_left] at h2; cases h2
  | [], _, _ :: _, _, _ => rfl
  | _ :: _, [], _, h1, _ => by rw [lexLt_nil_left] at h1; cases h1
  | _ :: _, _ :: _, [], _, h2 => by rw [lexLt_nil_left] at h2; cases h2
  | a :: as, b :: bs, c :: cs, h1, h2 => by
    rw [lexLt_cons] at *
    simp only [Bool.or_eq_true, Bool.and_eq_true, Bool.not_eq_true'] at *
    rcases h1 with h | ⟨h, h2'⟩ <;> rcases h2 with h' | ⟨h', h3'⟩
    · exact Or.inl (StrictWeak.trans _ _ _ h h')
    · left
      rcases hcb : lt b c with _ | _
      · rw [lt_congr_right (eqv_iff.2 ⟨hcb, h'⟩)] at h; exact h
      · exact (StrictWeak.trans _ _ _ h hcb)
    · left
      rcases hab : lt a b with _ | _
      · rw [← lt_congr_left (eqv_iff.2 ⟨hab, h⟩)] at h'; exact h'
      · exact (StrictWeak.trans _ _ _ hab h')
    · exact Or.inr ⟨not_lt_trans h h', lexLt_trans as bs cs h2' h3'⟩

theorem lexLt_eqv [StrictWeak α] : ∀ (l l' : List α),
    (lexLt l l' = false ∧ lexLt l' l = false) ↔ List.Forall₂ (fun a b => eqv a b = true) l l'
  | [], [] => by simp [lexLt]
  | [], _ :: _ => by simp [lexLt]
  | _ :: _, [] => by simp [lexLt]
  | a :: as, b :: bs => by
    rw [lexLt_cons, lexLt_cons, List.forall₂_cons, ← lexLt_eqv as bs, eqv_iff]
    rcases lt a b <;> rcases lt b a <;> simp

theorem list_eqv [StrictWeak α] (l l' : List α) :
    (lt l l' = false ∧ lt l' l = false) ↔ List.Forall₂ (fun a b => eqv a b = true) l l' :=
  lexLt_eqv l l'

instance [StrictWeak α] : StrictWeak (List α) where
  irrefl := lexLt_irrefl
  trans := lexLt_trans
  incomp a b c h1 h2 h3 h4 := by
    have hab := (list_eqv a b).1 ⟨h1, h2⟩
    have hbc := (list_eqv b c).1 ⟨h3, h4⟩
    apply (list_eqv a c).2
    clear h1 h2 h3 h4
    induction hab generalizing c with
    | nil => cases hbc; exact .nil
    | cons h _ ih => cases hbc with
      | cons h' hbc => exact .cons (eqv_trans h h') (ih _ hbc)

theorem list_eqv_eq [StrictTotal α] (l l' : List α) :
    List.Forall₂ (fun a b => eqv a b = true) l l' ↔ l = l' := by
  simp only [eqv_eq]; exact List.forall₂_eq_eq_eq ▸ Iff.rfl

instance [StrictTotal α] : StrictTotal (List α) where
  conn a b h1 h2 := (list_eqv_eq a b).1 ((list_eqv a b).1 ⟨h1, h2⟩)

omit [CppLt α] in
theorem listEq_iff [CppEq α] : ∀ (l l' : List α),
    listEq l l' = true ↔ List.Forall₂ (fun a b => CppEq.eq a b = true) l l'
  | [], [] => by simp [listEq]
  | [], _ :: _ => by simp [listEq]
  | _ :: _, [] => by simp [listEq]
  | a :: as, b :: bs => by simp [listEq, listEq_iff as bs]

instance [CppEq α] [StrictWeak α] [EqvIsEq α] : EqvIsEq (List α) where
  iff a b := by
    rw [list_eqv]
    show listEq a b = true ↔ _
    rw [listEq_iff]; simp only [cppEq_iff]
end list

/-! ## Sorting -/
section sort
variable {α : Type _}

theorem insertBy_perm (lt : α → α → Bool) (a : α) (l : List α) : (insertBy lt a l).Perm (a :: l) := by
  induction l with
  | nil => exact List.Perm.refl _
  | cons b l ih =>
    rw [insertBy]; split
    · exact (ih.cons b).trans (List.Perm.swap a b l)
    · exact List.Perm.refl _

theorem stdSortBy_perm (lt : α → α → Bool) (l : List α) : (stdSortBy lt l).Perm l := by
  induction l with
  | nil => exact List.Perm.refl _
  | cons a l ih => exact (insertBy_perm lt a _).trans (ih.cons a)

/-- sortedness as promised by `std::sort`: no later element is less than an earlier one -/
def Sorted (lt : α → α → Bool) (l : List α) : Prop := l.Pairwise (fun a b => lt b a = false)

variable [CppLt α]

theorem insertBy_sorted [StrictWeak α] (a : α) (l : List α) (h : Sorted CppLt.lt l) :
    Sorted CppLt.lt (insertBy CppLt.lt a l) := by
  induction l with
  | nil => simp [insertBy, Sorted]
  | cons b l ih =>
    rw [insertBy]
    rcases hba : CppLt.lt b a with _ | _
    · simp only [Bool.false_eq_true, if_false]
      refine List.pairwise_cons.2 ⟨?_, h⟩
      intro x hx
      rcases List.mem_cons.1 hx with rfl | hx
      · exact hba
      · exact not_lt_trans hba ((List.pairwise_cons.1 h).1 x hx)
    · simp only [if_true]
      refine List.pairwise_cons.2 ⟨?_, ih (List.pairwise_cons.1 h).2⟩
      intro x hx
      rcases List.mem_cons.1 ((insertBy_perm _ a l).subset hx) with rfl | hx
      · exact lt_asymm hba
      · exact (List.pairwise_cons.1 h).1 x hx

theorem stdSort_perm (l : List α) : (stdSort l).Perm l := stdSortBy_perm _ l

theorem stdSort_sorted [StrictWeak α] (l : List α) : Sorted CppLt.lt (stdSort l) := by
  induction l with
  | nil => exact List.Pairwise.nil
  | cons a l ih => exact insertBy_sorted a _ ih

theorem sorted_unique [StrictTotal α] : ∀ (l l' : List α), l.Perm l' → Sorted CppLt.lt l →
    Sorted CppLt.lt l' → l = l'
  | [], l', h, _, _ => (List.nil_perm.1 h).symm
  | a :: l, [], h, _, _ => absurd h.length_eq (by simp)
  | a :: l, b :: l', h, h1, h2 => by
    have hab : a = b := by
      have hb : b ∈ a :: l := h.symm.subset (List.mem_cons_self ..)
      have ha : a ∈ b :: l' := h.subset (List.mem_cons_self ..)
      rcases List.mem_cons.1 hb with e | hb
      · exact e.symm
      rcases List.mem_cons.1 ha with e | ha
      · exact e
      exact StrictTotal.conn a b ((List.pairwise_cons.1 h2).1 a ha) ((List.pairwise_cons.1 h1).1 b hb)
    subst hab
    rw [sorted_unique l l' (List.Perm.cons_inv h) (List.pairwise_cons.1 h1).2 (List.pairwise_cons.1 h2).2]

/-- for a total order any sorted rearrangement is the one the model computes -/
theorem stdSortBy_unique [StrictTotal α] (l l' : List α) (h : l'.Perm l) (hs : Sorted CppLt.lt l') :
    l' = stdSort l :=
  sorted_unique _ _ (h.trans (stdSort_perm l).symm) hs (stdSort_sorted l)

theorem insertBy_of_le (a : α) (l : List α) (h : ∀ b ∈ l, CppLt.lt b a = false) :
    insertBy CppLt.lt a l = a :: l := by
  cases l with
  | nil => rfl
  | cons b l => rw [insertBy, h b (List.mem_cons_self ..)]; rfl

theorem stdSort_of_sorted (l : List α) (h : Sorted CppLt.lt l) : stdSort l = l := by
  induction l with
  | nil => rfl
  | cons a l ih =>
    show insertBy CppLt.lt a (stdSort l) = a :: l
    rw [ih (List.pairwise_cons.1 h).2]
    exact insertBy_of_le a l (List.pairwise_cons.1 h).1

theorem stdSortRev_perm (l : List α) : (stdSortRev l).Perm l :=
  (List.reverse_perm _).trans ((stdSort_perm _).trans (List.reverse_perm _))

theorem stdSortRev_sorted [StrictWeak α] (l : List α) :
    (stdSortRev l).Pairwise (fun a b => CppLt.lt a b = false) := by
  unfold stdSortRev
  rw [List.pairwise_reverse]; exact stdSort_sorted _
end sort

theorem enumFrom_map_fst {α : Type _} (n : Int) (l : List α) : (enumFrom n l).map Prod.fst = l := by
  induction l generalizing n with
  | nil => rfl
  | cons a l ih => simp [enumFrom, ih]

theorem enumFrom_snd_ge {α : Type _} (n : Int) (l : List α) : ∀ p ∈ enumFrom n l, n ≤ p.2 := by
  induction l generalizing n with
  | nil => simp [enumFrom]
  | cons a l ih =>
    intro p hp
    rcases List.mem_cons.1 hp with rfl | hp
    · simp
    · have := ih (n+1) p hp; omega

theorem enumFrom_snd_sorted {α : Type _} (n : Int) (l : List α) :
    ((enumFrom n l).map Prod.snd).Pairwise (· < ·) := by
  induction l generalizing n with
  | nil => simp [enumFrom]
  | cons a l ih =>
    simp only [enumFrom, List.map_cons, List.pairwise_cons]
    refine ⟨?_, ih _⟩
    intro b hb
    obtain ⟨p, hp, rfl⟩ := List.mem_map.1 hb
    have := enumFrom_snd_ge _ _ p hp; omega

end Wicked
