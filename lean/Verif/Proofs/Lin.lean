import Verif.Spec.Lin
import Verif.Proofs.Order
import Verif.Proofs.Rational
import Mathlib.Algebra.Module.Basic
import Mathlib.Algebra.Module.BigOperators
import Mathlib.Algebra.BigOperators.Group.List.Basic
import Mathlib.Tactic.Ring
import Mathlib.Tactic.Abel
namespace Wicked
open CppLt CppEq Rational

namespace SMap
variable {κ ν : Type _} [CppLt κ]

/-- keys strictly increasing -/
abbrev Srt (m : SMap κ ν) : Prop := m.Pairwise (fun p q => lt p.1 q.1 = true)

theorem find_none_of_lt {k : κ} {m : SMap κ ν} (h : ∀ p ∈ m, lt p.1 k = false ∧ lt k p.1 = true) :
    find k m = none := by
  cases m with
  | nil => rfl
  | cons p m =>
    have := h p (List.mem_cons_self ..)
    simp [find, this.1, this.2]

variable [StrictWeak κ]

theorem find_none_of_lt_head {k : κ} {p : κ × ν} {m : SMap κ ν} (hs : Srt (p :: m))
    (h : eqv p.1 k = true ∨ lt k p.1 = true) : find k m = none := by
  apply find_none_of_lt
  intro q hq
  have := (List.pairwise_cons.1 hs).1 q hq
  have h2 : lt k q.1 = true := by
    rcases h with h | h
    · rw [← lt_congr_left h]; exact this
    · exact StrictWeak.trans _ _ _ h this
  exact ⟨lt_asymm h2, h2⟩

/-- head step of `find` on a sorted map -/
theorem find_cons {k : κ} {p : κ × ν} {m : SMap κ ν} (hs : Srt (p :: m)) :
    find k (p :: m) = if eqv p.1 k = true then some p.2 else find k m := by
  rcases p with ⟨k', v⟩
  rw [find]
  rcases lt_trichotomy k' k with h | h | h
  · have : eqv k' k = false := by simp [eqv, h]
    simp [h, this]
  · have h' := eqv_iff.1 h
    simp [h, h'.1, h'.2]
  · have h1 := lt_asymm h
    have h2 : eqv k' k = false := by simp [eqv, h]
    simp [h1, h, h2]
    exact (find_none_of_lt_head hs (Or.inr h)).symm

theorem find_congr {k k' : κ} {m : SMap κ ν} (h : eqv k k' = true) : find k m = find k' m := by
  induction m with
  | nil => rfl
  | cons p m ih => rcases p with ⟨a, v⟩; rw [find, find, lt_congr_right h, lt_congr_left h, ih]

theorem find_some_mem {k : κ} {v : ν} {m : SMap κ ν} (h : find k m = some v) :
    ∃ p ∈ m, eqv p.1 k = true ∧ p.2 = v := by
  induction m with
  | nil => cases h
  | cons p m ih =>
    rcases p with ⟨k', v'⟩
    rw [find] at h
    split at h
    · obtain ⟨q, hq, h⟩ := ih h
      exact ⟨q, List.mem_cons_of_mem _ hq, h⟩
    · split at h
      · cases h
      · rename_i h1 h2
        exact ⟨_, List.mem_cons_self .., eqv_iff.2 ⟨by simpa using h1, by simpa using h2⟩, by simpa using h⟩

theorem find_of_mem {m : SMap κ ν} (hs : Srt m) {p : κ × ν} (hp : p ∈ m) : find p.1 m = some p.2 := by
  induction m with
  | nil => cases hp
  | cons q m ih =>
    rw [find_cons hs]
    rcases List.mem_cons.1 hp with rfl | hp
    · simp [eqv_refl]
    · have h := (List.pairwise_cons.1 hs).1 p hp
      have : eqv q.1 p.1 = false := by simp [eqv, h]
      simp [this, ih (List.pairwise_cons.1 hs).2 hp]

theorem mem_insert_key {k : κ} {v : ν} {m : SMap κ ν} {p : κ × ν} (hp : p ∈ insert k v m) :
    p = (k, v) ∨ (∃ q ∈ m, p.1 = q.1 ∧ p.2 = v ∧ eqv q.1 k = true) ∨ p ∈ m := by
  induction m with
  | nil => simp [insert] at hp; exact Or.inl hp
  | cons q m ih =>
    rcases q with ⟨k', v'⟩
    rw [insert] at hp
    split at hp
    · rcases List.mem_cons.1 hp with rfl | hp
      · simp
      · rcases ih hp with h | ⟨q, hq, h⟩ | h
        · exact Or.inl h
        · exact Or.inr (Or.inl ⟨q, List.mem_cons_of_mem _ hq, h⟩)
        · exact Or.inr (Or.inr (List.mem_cons_of_mem _ h))
    · split at hp
      · rcases List.mem_cons.1 hp with rfl | hp
        · simp
        · exact Or.inr (Or.inr hp)
      · rename_i h1 h2
        rcases List.mem_cons.1 hp with rfl | hp
        · exact Or.inr (Or.inl ⟨_, List.mem_cons_self .., rfl, rfl, eqv_iff.2 ⟨by simpa using h1, by simpa using h2⟩⟩)
        · exact Or.inr (Or.inr (List.mem_cons_of_mem _ hp))

theorem srt_insert {k : κ} {v : ν} {m : SMap κ ν} (hs : Srt m) : Srt (insert k v m) := by
  induction m with
  | nil => simp [insert, Srt]
  | cons q m ih =>
    rcases q with ⟨k', v'⟩
    have hs' := List.pairwise_cons.1 hs
    rw [insert]
    split
    · rename_i h1
      refine List.pairwise_cons.2 ⟨?_, ih hs'.2⟩
      intro p hp
      rcases mem_insert_key hp with rfl | ⟨q, hq, h, _⟩ | h
      · exact h1
      · rw [h]; exact hs'.1 q hq
      · exact hs'.1 p h
    · split
      · rename_i h1 h2
        refine List.pairwise_cons.2 ⟨?_, hs⟩
        intro p hp
        rcases List.mem_cons.1 hp with rfl | hp
        · exact h2
        · exact StrictWeak.trans _ _ _ h2 (hs'.1 p hp)
      · exact List.pairwise_cons.2 ⟨hs'.1, hs'.2⟩

theorem erase_sublist (k : κ) (m : SMap κ ν) : List.Sublist (erase k m) m := by
  induction m with
  | nil => exact List.Sublist.refl _
  | cons q m ih =>
    rcases q with ⟨k', v'⟩
    rw [erase]; split
    · exact ih.cons₂ _
    · split
      · exact List.Sublist.refl _
      · exact List.sublist_cons_self ..

theorem srt_erase {k : κ} {m : SMap κ ν} (hs : Srt m) : Srt (erase k m) := hs.sublist (erase_sublist k m)

theorem find_insert {k k' : κ} {v : ν} {m : SMap κ ν} (hs : Srt m) :
    find k' (insert k v m) = if eqv k k' = true then some v else find k' m := by
  induction m with
  | nil =>
    simp only [insert]; rw [find_cons (by simp [Srt])]
  | cons q m ih =>
    rcases q with ⟨a, w⟩
    have hs' := List.pairwise_cons.1 hs
    have hsi := srt_insert (k := k) (v := v) hs
    rw [insert] at hsi ⊢
    by_cases h1 : lt a k = true
    · rw [if_pos h1] at hsi ⊢
      rw [find_cons hsi, find_cons hs, ih hs'.2]
      by_cases h2 : eqv k k' = true
      · have : eqv a k' = false := by
          rw [← eqv_congr_right h2]; simp [eqv, h1]
        simp [h2, this]
      · simp [h2]
    · rw [if_neg h1] at hsi ⊢
      by_cases h2 : lt k a = true
      · rw [if_pos h2] at hsi ⊢
        rw [find_cons hsi]
      · rw [if_neg h2] at hsi ⊢
        have : eqv a k = true := eqv_iff.2 ⟨by simpa using h1, by simpa using h2⟩
        rw [find_cons hsi, find_cons hs, eqv_congr_left this]
        split <;> rfl

theorem find_erase {k k' : κ} {m : SMap κ ν} (hs : Srt m) :
    find k' (erase k m) = if eqv k k' = true then none else find k' m := by
  induction m with
  | nil => simp [erase, find]
  | cons q m ih =>
    rcases q with ⟨a, w⟩
    have hs' := List.pairwise_cons.1 hs
    have hsi := srt_erase (k := k) hs
    rw [erase] at hsi ⊢
    by_cases h1 : lt a k = true
    · rw [if_pos h1] at hsi ⊢
      rw [find_cons hsi, find_cons hs, ih hs'.2]
      by_cases h2 : eqv k k' = true
      · have : eqv a k' = false := by
          rw [← eqv_congr_right h2]; simp [eqv, h1]
        simp [h2, this]
      · simp [h2]
    · rw [if_neg h1] at hsi ⊢
      by_cases h2 : lt k a = true
      · rw [if_pos h2] at hsi ⊢
        split
        · rename_i h3
          apply find_none_of_lt
          intro p hp
          have : lt k p.1 = true := by
            rcases List.mem_cons.1 hp with rfl | hp
            · exact h2
            · exact StrictWeak.trans _ _ _ h2 (hs'.1 p hp)
          rw [lt_congr_left h3] at this
          exact ⟨lt_asymm this, this⟩
        · rfl
      · rw [if_neg h2] at hsi ⊢
        have hak : eqv a k = true := eqv_iff.2 ⟨by simpa using h1, by simpa using h2⟩
        rw [find_cons hs, eqv_congr_left hak]
        split
        · rename_i h3
          exact find_none_of_lt_head hs (Or.inl (eqv_trans hak h3))
        · rfl

end SMap

namespace Lin
variable {κ : Type _} [CppLt κ] [StrictWeak κ]
open SMap

theorem num_zero_iff {v : Rational} (h : Canon v) : Rational.eq v (Rational.ofInt 0) = true ↔ toRat v = 0 := by
  rw [Rational.eq_toRat h (canon_ofInt 0), toRat_ofInt]; simp

theorem coef_congr {m : Lin κ} {k k' : κ} (h : eqv k k' = true) : coef m k = coef m k' := by
  unfold coef; rw [find_congr h]

theorem ok_nil : Ok ([] : Lin κ) := ⟨List.Pairwise.nil, by simp⟩
theorem wf_nil : WF ([] : Lin κ) := ⟨ok_nil, by simp⟩
@[simp] theorem coef_nil (k : κ) : coef ([] : Lin κ) k = 0 := rfl

theorem find_canon {m : Lin κ} (h : Ok m) {k : κ} {v : Rational} (hf : find k m = some v) : Canon v := by
  obtain ⟨p, hp, _, rfl⟩ := find_some_mem hf
  exact h.canon p hp

theorem ok_add {m : Lin κ} (h : Ok m) (k : κ) {v : Rational} (hv : Canon v) : Ok (m.add k v) := by
  unfold add
  split
  · exact h
  · split
    · rename_i w hw
      have hc := canon_add (find_canon h hw) hv
      dsimp only
      split
      · exact ⟨srt_erase h.sorted, fun p hp => h.canon p ((erase_sublist k m).subset hp)⟩
      · refine ⟨srt_insert h.sorted, fun p hp => ?_⟩
        rcases mem_insert_key hp with rfl | ⟨q, _, _, h2, _⟩ | h3
        · exact hc
        · rw [h2]; exact hc
        · exact h.canon p h3
    · refine ⟨srt_insert h.sorted, fun p hp => ?_⟩
      rcases mem_insert_key hp with rfl | ⟨q, _, _, h2, _⟩ | h3
      · exact hv
      · rw [h2]; exact hv
      · exact h.canon p h3

theorem wf_add {m : Lin κ} (h : WF m) (k : κ) {v : Rational} (hv : Canon v) : WF (m.add k v) := by
  refine ⟨ok_add h.toOk k hv, ?_⟩
  unfold add
  split
  · exact h.nonzero
  · rename_i hz
    rw [num_zero_iff hv] at hz
    split
    · rename_i w hw
      have hc := canon_add (find_canon h.toOk hw) hv
      dsimp only
      split
      · exact fun p hp => h.nonzero p ((erase_sublist k m).subset hp)
      · rename_i hz2
        rw [num_zero_iff hc] at hz2
        intro p hp
        rcases mem_insert_key hp with rfl | ⟨q, _, _, h2, _⟩ | h3
        · exact hz2
        · rw [h2]; exact hz2
        · exact h.nonzero p h3
    · intro p hp
      rcases mem_insert_key hp with rfl | ⟨q, _, _, h2, _⟩ | h3
      · exact hz
      · rw [h2]; exact hz
      · exact h.nonzero p h3

/-- `add_to_map` adds to one coefficient and leaves the others alone -/
theorem coef_add {m : Lin κ} (h : Ok m) (k k' : κ) {v : Rational} (hv : Canon v) :
    coef (m.add k v) k' = coef m k' + if eqv k k' = true then toRat v else 0 := by
  unfold add
  split
  · rename_i hz
    rw [num_zero_iff hv] at hz; simp [hz]
  · split
    · rename_i w hw
      have hwc := find_canon h hw
      have hc := canon_add hwc hv
      dsimp only
      split
      · rename_i hz2
        rw [num_zero_iff hc, toRat_add hwc hv] at hz2
        unfold coef
        rw [find_erase h.sorted]
        by_cases he : eqv k k' = true
        · rw [if_pos he, if_pos he, ← find_congr he, hw]; simp [hz2]
        · rw [if_neg he, if_neg he]; simp
      · unfold coef
        rw [find_insert h.sorted]
        by_cases he : eqv k k' = true
        · rw [if_pos he, if_pos he, ← find_congr he, hw]; simp [toRat_add hwc hv]
        · rw [if_neg he, if_neg he]; simp
    · rename_i hw
      unfold coef
      rw [find_insert h.sorted]
      by_cases he : eqv k k' = true
      · rw [if_pos he, if_pos he, ← find_congr he, hw]; simp
      · rw [if_neg he, if_neg he]; simp

/-- coefficient as a sum over the stored entries -/
theorem coef_eq_sum {m : Lin κ} (h : Ok m) (k : κ) :
    coef m k = (m.map (fun p => if eqv p.1 k = true then toRat p.2 else 0)).sum := by
  induction m with
  | nil => rfl
  | cons p m ih =>
    have hs' := List.pairwise_cons.1 h.sorted
    have hok : Ok m := ⟨hs'.2, fun q hq => h.canon q (List.mem_cons_of_mem _ hq)⟩
    unfold coef
    rw [find_cons h.sorted, List.map_cons, List.sum_cons, ← ih hok]
    by_cases he : eqv p.1 k = true
    · rw [if_pos he, if_pos he]
      unfold coef; rw [find_none_of_lt_head h.sorted (Or.inl he)]; simp
    · rw [if_neg he, if_neg he]; simp [coef]

theorem coef_of_mem {m : Lin κ} (h : Ok m) {p : κ × Rational} (hp : p ∈ m) : coef m p.1 = toRat p.2 := by
  unfold coef; rw [find_of_mem h.sorted hp]; rfl

/-- folding `add` over a list of contributions -/
theorem fold_add {β : Type _} (l : List β) (f : β → κ) (g : β → Rational) (hg : ∀ b ∈ l, Canon (g b)) :
    ∀ m : Lin κ, Ok m →
      Ok (l.foldl (fun r b => Lin.add r (f b) (g b)) m) ∧
      (WF m → WF (l.foldl (fun r b => Lin.add r (f b) (g b)) m)) ∧
      ∀ k, coef (l.foldl (fun r b => Lin.add r (f b) (g b)) m) k =
        coef m k + (l.map (fun b => if eqv (f b) k = true then toRat (g b) else 0)).sum := by
  induction l with
  | nil => intro m h; exact ⟨h, id, fun k => by simp⟩
  | cons b l ih =>
    intro m h
    have hb := hg b (List.mem_cons_self ..)
    obtain ⟨h1, h2, h3⟩ := ih (fun c hc => hg c (List.mem_cons_of_mem _ hc)) (m.add (f b) (g b)) (ok_add h _ hb)
    refine ⟨h1, fun hw => h2 (wf_add hw _ hb), fun k => ?_⟩
    rw [List.foldl_cons, h3, coef_add h _ _ hb, List.map_cons, List.sum_cons]; ring

/-! ### The operations -/

theorem plus_spec {m m' : Lin κ} (h : Ok m) (h' : Ok m') :
    Ok (plus m m') ∧ (WF m → WF (plus m m')) ∧ ∀ k, coef (plus m m') k = coef m k + coef m' k := by
  obtain ⟨h1, h2, h3⟩ := fold_add m' Prod.fst Prod.snd (fun p hp => h'.canon p hp) m h
  exact ⟨h1, h2, fun k => by rw [coef_eq_sum h']; exact h3 k⟩

theorem sum_ite_neg {β : Type _} (l : List β) (P : β → Bool) (g : β → ℚ) :
    (l.map (fun b => if P b = true then - g b else 0)).sum = - (l.map (fun b => if P b = true then g b else 0)).sum := by
  induction l with
  | nil => simp
  | cons b l ih => simp only [List.map_cons, List.sum_cons, ih]; split <;> ring

theorem minus_spec {m m' : Lin κ} (h : Ok m) (h' : Ok m') :
    Ok (minus m m') ∧ (WF m → WF (minus m m')) ∧ ∀ k, coef (minus m m') k = coef m k - coef m' k := by
  obtain ⟨h1, h2, h3⟩ := fold_add m' Prod.fst (fun p => Rational.neg p.2) (fun p hp => canon_neg (h'.canon p hp)) m h
  refine ⟨h1, h2, fun k => ?_⟩
  rw [coef_eq_sum h']
  refine (h3 k).trans ?_
  simp only [toRat_neg]
  rw [sum_ite_neg m' (fun p => eqv p.1 k) (fun p => toRat p.2)]; ring

theorem neg_spec {m : Lin κ} (h : Ok m) : WF (neg m) ∧ ∀ k, coef (neg m) k = - coef m k := by
  obtain ⟨h1, h2, h3⟩ := fold_add m Prod.fst (fun p => Rational.neg p.2) (fun p hp => canon_neg (h.canon p hp)) [] ok_nil
  refine ⟨h2 wf_nil, fun k => ?_⟩
  rw [coef_eq_sum h]
  refine (h3 k).trans ?_
  simp only [toRat_neg]
  rw [sum_ite_neg m (fun p => eqv p.1 k) (fun p => toRat p.2)]; simp

theorem smul_spec {m : Lin κ} (h : Ok m) {c : Rational} (hc : Canon c) :
    Ok (smul m c) ∧ (WF m → toRat c ≠ 0 → WF (smul m c)) ∧ ∀ k, coef (smul m c) k = coef m k * toRat c := by
  have hok : Ok (smul m c) := by
    refine ⟨?_, ?_⟩
    · unfold smul; rw [List.pairwise_map]; exact h.sorted
    · intro p hp
      obtain ⟨q, hq, rfl⟩ := List.mem_map.1 hp
      exact canon_mul (h.canon q hq) hc
  refine ⟨hok, fun hw hz => ⟨hok, ?_⟩, fun k => ?_⟩
  · intro p hp
    obtain ⟨q, hq, rfl⟩ := List.mem_map.1 hp
    simp only [toRat_mul]; exact mul_ne_zero (hw.nonzero q hq) hz
  · rw [coef_eq_sum hok, coef_eq_sum h]
    unfold smul
    rw [List.map_map, ← List.sum_map_mul_right]
    congr 1; apply List.map_congr_left; intro p _
    simp only [Function.comp, toRat_mul]; split <;> ring

theorem mapKeys_spec (f : κ → κ) {m : Lin κ} (h : Ok m) :
    WF (mapKeys f m) ∧ ∀ k, coef (mapKeys f m) k =
      (m.map (fun p => if eqv (f p.1) k = true then toRat p.2 else 0)).sum := by
  obtain ⟨h1, h2, h3⟩ := fold_add m (fun p => f p.1) Prod.snd (fun p hp => h.canon p hp) [] ok_nil
  exact ⟨h2 wf_nil, fun k => (h3 k).trans (by simp)⟩

/-- the double loop of the product as one loop over all pairs -/
theorem mul_eq_fold (f : κ → κ → κ) (m m' : Lin κ) :
    mul f m m' = (m.flatMap (fun p => m'.map (fun q => (p, q)))).foldl
      (fun r b => Lin.add r (f b.1.1 b.2.1) (Rational.mul b.1.2 b.2.2)) [] := by
  unfold mul
  rw [List.foldl_flatMap]
  congr 1
  funext r p
  rw [List.foldl_map]

theorem mul_spec (f : κ → κ → κ) {m m' : Lin κ} (h : Ok m) (h' : Ok m') :
    WF (mul f m m') ∧ ∀ k, coef (mul f m m') k =
      (m.map (fun p => (m'.map (fun q => if eqv (f p.1 q.1) k = true then toRat p.2 * toRat q.2 else 0)).sum)).sum := by
  rw [mul_eq_fold]
  obtain ⟨h1, h2, h3⟩ := fold_add (m.flatMap (fun p => m'.map (fun q => (p, q))))
    (fun b => f b.1.1 b.2.1) (fun b => Rational.mul b.1.2 b.2.2) (by
      intro b hb
      obtain ⟨p, hp, hb⟩ := List.mem_flatMap.1 hb
      obtain ⟨q, hq, rfl⟩ := List.mem_map.1 hb
      exact canon_mul (h.canon p hp) (h'.canon q hq)) [] ok_nil
  refine ⟨h2 wf_nil, fun k => ?_⟩
  rw [h3 k, coef_nil, zero_add, List.map_flatMap]
  clear h3 h2 h1
  simp only [List.map_map, toRat_mul]
  clear h
  induction m with
  | nil => rfl
  | cons p m ih =>
    simp only [List.flatMap_cons, List.sum_append, List.map_cons, List.sum_cons, ih]
    rfl

/-! ### Equality -/

theorem eq_of_coef [CppEq κ] [EqvIsEq κ] : ∀ {m m' : Lin κ}, WF m → WF m' →
    (∀ k, coef m k = coef m' k) → isEqual m m' = true
  | [], [], _, _, _ => rfl
  | [], p :: m', _, h', hc => by
    have := hc p.1
    rw [coef_of_mem h'.toOk (List.mem_cons_self ..), coef_nil] at this
    exact absurd this.symm (h'.nonzero p (List.mem_cons_self ..))
  | p :: m, [], h, _, hc => by
    have := hc p.1
    rw [coef_of_mem h.toOk (List.mem_cons_self ..), coef_nil] at this
    exact absurd this (h.nonzero p (List.mem_cons_self ..))
  | p :: m, q :: m', h, h', hc => by
    have hs := List.pairwise_cons.1 h.sorted
    have hs' := List.pairwise_cons.1 h'.sorted
    have hp0 := h.nonzero p (List.mem_cons_self ..)
    have hq0 := h'.nonzero q (List.mem_cons_self ..)
    have key : ∀ {p q : κ × Rational} {m' : Lin κ}, WF (q :: m') → toRat p.2 ≠ 0 →
        coef (q :: m') p.1 = toRat p.2 → lt p.1 q.1 = false := by
      intro p q m' h' hp0 hc
      by_contra hlt
      have hlt : lt p.1 q.1 = true := by simpa using hlt
      have hn : SMap.find p.1 (q :: m') = none := by
        apply find_none_of_lt
        intro r hr
        have : lt p.1 r.1 = true := by
          rcases List.mem_cons.1 hr with rfl | hr
          · exact hlt
          · exact StrictWeak.trans _ _ _ hlt ((List.pairwise_cons.1 h'.sorted).1 r hr)
        exact ⟨lt_asymm this, this⟩
      unfold coef at hc; rw [hn] at hc; exact hp0 hc.symm
    have h1 : lt p.1 q.1 = false := key h' hp0 (by
      rw [← hc]; exact coef_of_mem h.toOk (List.mem_cons_self ..))
    have h2 : lt q.1 p.1 = false := key h hq0 (by
      rw [hc]; exact coef_of_mem h'.toOk (List.mem_cons_self ..))
    have he : eqv p.1 q.1 = true := eqv_iff.2 ⟨h1, h2⟩
    have hv : toRat p.2 = toRat q.2 := by
      have := hc p.1
      rw [coef_of_mem h.toOk (List.mem_cons_self ..), coef_congr he,
        coef_of_mem h'.toOk (List.mem_cons_self ..)] at this
      exact this
    have hm : WF m := ⟨⟨hs.2, fun r hr => h.canon r (List.mem_cons_of_mem _ hr)⟩, fun r hr => h.nonzero r (List.mem_cons_of_mem _ hr)⟩
    have hm' : WF m' := ⟨⟨hs'.2, fun r hr => h'.canon r (List.mem_cons_of_mem _ hr)⟩, fun r hr => h'.nonzero r (List.mem_cons_of_mem _ hr)⟩
    have hrec : isEqual m m' = true := by
      apply eq_of_coef hm hm'
      intro k
      have := hc k
      unfold coef at this ⊢
      rw [find_cons h.sorted, find_cons h'.sorted, eqv_congr_left he] at this
      by_cases hk : eqv q.1 k = true
      · rw [find_none_of_lt_head h.sorted (Or.inl (eqv_trans he hk)),
          find_none_of_lt_head h'.sorted (Or.inl hk)]
      · rw [if_neg hk, if_neg hk] at this; exact this
    show listEq (p :: m) (q :: m') = true
    rw [listEq]
    have e1 : CppEq.eq p q = true := by
      show (CppEq.eq p.1 q.1 && CppEq.eq p.2 q.2) = true
      rw [Bool.and_eq_true]
      refine ⟨cppEq_iff.2 he, ?_⟩
      exact (eq_toRat (h.canon p (List.mem_cons_self ..)) (h'.canon q (List.mem_cons_self ..))).2 hv
    rw [e1, Bool.true_and]; exact hrec

theorem coef_of_eq [CppEq κ] [EqvIsEq κ] : ∀ {m m' : Lin κ}, Ok m → Ok m' → isEqual m m' = true →
    ∀ k, coef m k = coef m' k
  | [], [], _, _, _, _ => rfl
  | [], p :: m', _, h', hc, _ => by cases hc
  | p :: m, [], h, _, hc, _ => by cases hc
  | p :: m, q :: m', h, h', hc, k => by
    have hc' : (CppEq.eq p q && listEq m m') = true := hc
    rw [Bool.and_eq_true] at hc'
    have e1 : (CppEq.eq p.1 q.1 && CppEq.eq p.2 q.2) = true := hc'.1
    rw [Bool.and_eq_true] at e1
    have he := cppEq_iff.1 e1.1
    have hv : toRat p.2 = toRat q.2 :=
      (eq_toRat (h.canon p (List.mem_cons_self ..)) (h'.canon q (List.mem_cons_self ..))).1 e1.2
    have hs := List.pairwise_cons.1 h.sorted
    have hs' := List.pairwise_cons.1 h'.sorted
    have hm : Ok m := ⟨hs.2, fun r hr => h.canon r (List.mem_cons_of_mem _ hr)⟩
    have hm' : Ok m' := ⟨hs'.2, fun r hr => h'.canon r (List.mem_cons_of_mem _ hr)⟩
    have := coef_of_eq hm hm' hc'.2 k
    unfold coef at this ⊢
    rw [find_cons h.sorted, find_cons h'.sorted, eqv_congr_left he]
    split
    · simp [hv]
    · exact this

/-- equality of well-formed expressions is equality of all coefficients -/
theorem isEqual_iff [CppEq κ] [EqvIsEq κ] {m m' : Lin κ} (h : WF m) (h' : WF m') :
    isEqual m m' = true ↔ ∀ k, coef m k = coef m' k :=
  ⟨coef_of_eq h.toOk h'.toOk, eq_of_coef h h'⟩

/-! ### Values in a vector space -/
section eval
variable {M : Type _} [AddCommGroup M] [Module ℚ M]

theorem eval_nil (φ : κ → M) : eval φ ([] : Lin κ) = 0 := rfl

theorem eval_cons (φ : κ → M) (p : κ × Rational) (m : Lin κ) :
    eval φ (p :: m) = toRat p.2 • φ p.1 + eval φ m := by
  simp [eval]

theorem eval_insert_new (φ : κ → M) {m : Lin κ} (k : κ) (v : Rational) (hf : find k m = none) (hs : Srt m) :
    eval φ (SMap.insert k v m) = toRat v • φ k + eval φ m := by
  induction m with
  | nil => simp [SMap.insert, eval]
  | cons q m ih =>
    rcases q with ⟨a, w⟩
    rw [SMap.insert]
    rw [find] at hf
    split
    · rename_i h1
      rw [if_pos h1] at hf
      rw [eval_cons, ih hf (List.pairwise_cons.1 hs).2, eval_cons]; abel
    · rename_i h1
      rw [if_neg h1] at hf
      split
      · rw [eval_cons]
      · rename_i h2
        rw [if_neg h2] at hf; cases hf

theorem eval_insert_old (φ : κ → M) (hφ : ∀ a b : κ, eqv a b = true → φ a = φ b)
    {m : Lin κ} (k : κ) (v w : Rational) (hf : find k m = some w) :
    eval φ (SMap.insert k v m) = (toRat v - toRat w) • φ k + eval φ m := by
  induction m with
  | nil => cases hf
  | cons q m ih =>
    rcases q with ⟨a, u⟩
    rw [SMap.insert]
    rw [find] at hf
    split
    · rename_i h1
      rw [if_pos h1] at hf
      rw [eval_cons, ih hf, eval_cons]; abel
    · rename_i h1
      rw [if_neg h1] at hf
      split
      · rename_i h2; rw [if_pos h2] at hf; cases hf
      · rename_i h2
        rw [if_neg h2] at hf
        cases hf
        have : φ a = φ k := hφ a k (eqv_iff.2 ⟨by simpa using h1, by simpa using h2⟩)
        rw [eval_cons, eval_cons, this, sub_smul]; simp only; abel

theorem eval_erase (φ : κ → M) (hφ : ∀ a b : κ, eqv a b = true → φ a = φ b)
    {m : Lin κ} (k : κ) (w : Rational) (hf : find k m = some w) :
    eval φ (SMap.erase k m) = - (toRat w) • φ k + eval φ m := by
  induction m with
  | nil => cases hf
  | cons q m ih =>
    rcases q with ⟨a, u⟩
    rw [SMap.erase]
    rw [find] at hf
    split
    · rename_i h1
      rw [if_pos h1] at hf
      rw [eval_cons, ih hf, eval_cons]; abel
    · rename_i h1
      rw [if_neg h1] at hf
      split
      · rename_i h2; rw [if_pos h2] at hf; cases hf
      · rename_i h2
        rw [if_neg h2] at hf
        cases hf
        have : φ a = φ k := hφ a k (eqv_iff.2 ⟨by simpa using h1, by simpa using h2⟩)
        rw [eval_cons, this, neg_smul]; simp

/-- adding a term adds its value, for every valuation that does not distinguish equal terms -/
theorem eval_add (φ : κ → M) (hφ : ∀ a b : κ, eqv a b = true → φ a = φ b)
    {m : Lin κ} (h : Ok m) (k : κ) {v : Rational} (hv : Canon v) :
    eval φ (m.add k v) = eval φ m + toRat v • φ k := by
  unfold add
  split
  · rename_i hz
    rw [num_zero_iff hv] at hz; simp [hz]
  · split
    · rename_i w hw
      have hwc := find_canon h hw
      have hc := canon_add hwc hv
      dsimp only
      split
      · rename_i hz2
        rw [num_zero_iff hc, toRat_add hwc hv] at hz2
        rw [eval_erase φ hφ k w hw, show toRat v = - toRat w by linarith]; abel
      · rw [eval_insert_old φ hφ k _ w hw, toRat_add hwc hv, add_sub_cancel_left]; abel
    · rename_i hw
      rw [eval_insert_new φ k v hw h.sorted]; abel

theorem eval_fold_add {β : Type _} (φ : κ → M) (hφ : ∀ a b : κ, eqv a b = true → φ a = φ b)
    (l : List β) (f : β → κ) (g : β → Rational) (hg : ∀ b ∈ l, Canon (g b)) :
    ∀ m : Lin κ, Ok m → eval φ (l.foldl (fun r b => Lin.add r (f b) (g b)) m) =
      eval φ m + (l.map (fun b => toRat (g b) • φ (f b))).sum := by
  induction l with
  | nil => intro m _; simp
  | cons b l ih =>
    intro m h
    have hb := hg b (List.mem_cons_self ..)
    rw [List.foldl_cons, ih (fun c hc => hg c (List.mem_cons_of_mem _ hc)) _ (ok_add h _ hb),
      eval_add φ hφ h _ hb, List.map_cons, List.sum_cons, add_assoc]

end eval
end Lin
end Wicked

namespace Wicked.Lin
open CppLt SMap
variable {κ : Type _} [CppLt κ] [StrictWeak κ]

/-- keys of the result of `add` are old keys or the new key -/
theorem mem_add {m : Lin κ} {k : κ} {v : Rational} {p : κ × Rational} (hp : p ∈ m.add k v) :
    p.1 = k ∨ ∃ q ∈ m, q.1 = p.1 := by
  unfold add at hp
  split at hp
  · exact Or.inr ⟨p, hp, rfl⟩
  · split at hp
    · dsimp only at hp
      split at hp
      · exact Or.inr ⟨p, (erase_sublist k m).subset hp, rfl⟩
      · rcases mem_insert_key hp with rfl | ⟨q, hq, h1, _⟩ | h
        · exact Or.inl rfl
        · exact Or.inr ⟨q, hq, h1.symm⟩
        · exact Or.inr ⟨p, h, rfl⟩
    · rcases mem_insert_key hp with rfl | ⟨q, hq, h1, _⟩ | h
      · exact Or.inl rfl
      · exact Or.inr ⟨q, hq, h1.symm⟩
      · exact Or.inr ⟨p, h, rfl⟩

theorem mem_fold_add {β : Type _} (P : κ → Prop) (f : β → κ) (g : β → Rational) : ∀ (l : List β) (m : Lin κ),
    (∀ p ∈ m, P p.1) → (∀ b ∈ l, P (f b)) → ∀ p ∈ l.foldl (fun r b => Lin.add r (f b) (g b)) m, P p.1
  | [], _, hm, _ => hm
  | b :: l, m, hm, hl => by
    rw [List.foldl_cons]
    apply mem_fold_add P f g l
    · intro p hp
      rcases mem_add hp with h | ⟨q, hq, h⟩
      · rw [h]; exact hl b (List.mem_cons_self ..)
      · rw [← h]; exact hm q hq
    · exact fun c hc => hl c (List.mem_cons_of_mem _ hc)

end Wicked.Lin

namespace Wicked.Lin
open CppLt SMap Rational
variable {κ : Type _} [CppLt κ] [StrictWeak κ]
variable {M : Type _} [AddCommGroup M] [Module ℚ M]

/-- value of a product: the double sum over pairs of terms -/
theorem eval_mul (φ : κ → M) (hφ : ∀ a b : κ, eqv a b = true → φ a = φ b) (f : κ → κ → κ) {m m' : Lin κ}
    (h : Ok m) (h' : Ok m') :
    eval φ (mul f m m') = (m.map (fun p => (m'.map (fun q => (toRat p.2 * toRat q.2) • φ (f p.1 q.1))).sum)).sum := by
  rw [mul_eq_fold, eval_fold_add φ hφ _ (fun b : (κ × Rational) × (κ × Rational) => f b.1.1 b.2.1)
    (fun b => Rational.mul b.1.2 b.2.2) (by
      intro b hb
      obtain ⟨p, hp, hb⟩ := List.mem_flatMap.1 hb
      obtain ⟨q, hq, rfl⟩ := List.mem_map.1 hb
      exact canon_mul (h.canon p hp) (h'.canon q hq)) [] ok_nil, eval_nil, zero_add]
  clear h h'
  induction m with
  | nil => rfl
  | cons p m ih =>
    rw [List.flatMap_cons, List.map_append, List.sum_append, ih, List.map_cons, List.sum_cons, List.map_map]
    simp only [Function.comp_def, toRat_mul]

theorem eval_plus (φ : κ → M) (hφ : ∀ a b : κ, eqv a b = true → φ a = φ b) {m m' : Lin κ} (h : Ok m) (h' : Ok m') :
    eval φ (plus m m') = eval φ m + eval φ m' :=
  eval_fold_add φ hφ m' Prod.fst Prod.snd (fun p hp => h'.canon p hp) m h

theorem eval_minus (φ : κ → M) (hφ : ∀ a b : κ, eqv a b = true → φ a = φ b) {m m' : Lin κ} (h : Ok m) (h' : Ok m') :
    eval φ (minus m m') = eval φ m - eval φ m' := by
  refine (eval_fold_add φ hφ m' Prod.fst (fun p => Rational.neg p.2) (fun p hp => canon_neg (h'.canon p hp)) m h).trans ?_
  rw [sub_eq_add_neg]
  congr 1
  clear h'
  induction m' with
  | nil => simp [eval]
  | cons p m' ih => rw [List.map_cons, List.sum_cons, ih, eval_cons, neg_add, toRat_neg, neg_smul]

theorem eval_mapKeys (φ : κ → M) (hφ : ∀ a b : κ, eqv a b = true → φ a = φ b) (f : κ → κ) {m : Lin κ} (h : Ok m) :
    eval φ (mapKeys f m) = (m.map (fun p => toRat p.2 • φ (f p.1))).sum := by
  refine (eval_fold_add φ hφ m (fun p => f p.1) Prod.snd (fun p hp => h.canon p hp) [] ok_nil).trans ?_
  rw [eval_nil, zero_add]

/-- expressions with the same value under every rational functional are `==` -/
theorem isEqual_of_eval [CppEq κ] [EqvIsEq κ] {m m' : Lin κ} (h : WF m) (h' : WF m')
    (H : ∀ φ : κ → ℚ, (∀ a b : κ, eqv a b = true → φ a = φ b) → eval φ m = eval φ m') : isEqual m m' = true := by
  rw [isEqual_iff h h']
  intro k
  have key : ∀ {m : Lin κ}, Ok m → eval (fun a => if eqv a k = true then (1:ℚ) else 0) m = coef m k := by
    intro m hm
    rw [coef_eq_sum hm, eval]
    congr 1; apply List.map_congr_left; intro p _
    split <;> simp
  rw [← key h.toOk, ← key h'.toOk]
  apply H
  intro a b hab
  rw [eqv_congr_left hab]

/-- adding terms that do not meet any other term: the value is the sum for every valuation, also
one that distinguishes `==` terms -/
theorem eval_fold_add_new {β : Type _} (φ : κ → M) (f : β → κ) (g : β → Rational) : ∀ (l : List β) (m : Lin κ), Ok m →
    (∀ b ∈ l, Canon (g b)) → l.Pairwise (fun b c => eqv (f b) (f c) = false) →
    (∀ b ∈ l, ∀ p ∈ m, eqv p.1 (f b) = false) →
    eval φ (l.foldl (fun r b => Lin.add r (f b) (g b)) m) = eval φ m + (l.map (fun b => toRat (g b) • φ (f b))).sum := by
  intro l
  induction l with
  | nil => intro m _ _ _ _; simp
  | cons b l ih =>
    intro m hm hg hp hn
    have hb := hg b (List.mem_cons_self ..)
    have hfind : SMap.find (f b) m = none := by
      cases hf : SMap.find (f b) m with
      | none => rfl
      | some w =>
        obtain ⟨p, hp1, hp2, _⟩ := find_some_mem hf
        rw [hn b (List.mem_cons_self ..) p hp1] at hp2; cases hp2
    have hadd : eval φ (Lin.add m (f b) (g b)) = eval φ m + toRat (g b) • φ (f b) := by
      unfold add
      split
      · rename_i hz
        rw [num_zero_iff hb] at hz; simp [hz]
      · rw [hfind]
        simp only
        rw [eval_insert_new φ _ _ hfind hm.sorted, add_comm]
    have hp' := List.pairwise_cons.1 hp
    rw [List.foldl_cons, ih _ (ok_add hm _ hb) (fun c hc => hg c (List.mem_cons_of_mem _ hc)) hp'.2, hadd, List.map_cons,
      List.sum_cons, add_assoc]
    intro c hc p hpm
    rcases mem_add hpm with h | ⟨q, hq, h⟩
    · rw [h]; exact hp'.1 c hc
    · rw [← h]; exact hn c (List.mem_cons_of_mem _ hc) q hq

end Wicked.Lin
