import Verif.Model.Orbital
import Mathlib.Data.List.Basic
import Mathlib.Data.List.Nodup
/-! # Lemmas about the registry -/
namespace Wicked
namespace OSI

theorem mapGet_cons {κ : Type} [DecidableEq κ] (m : List (κ × Int)) (k k' : κ) (i : Int) :
    mapGet ((k, i) :: m) k' = if k = k' then some i else mapGet m k' := by
  unfold mapGet
  rw [List.find?_cons]
  by_cases h : k = k' <;> simp [h]

/-- what the index loop does -/
theorem addIndices_spec (pos : Int) (is : List Str) (m : List (Str × Int)) :
    ((addIndices pos is m).2 = .ok () ∧ is.Nodup ∧ (∀ i ∈ is, mapGet m i = none) ∧
      ∀ k, mapGet (addIndices pos is m).1 k = if k ∈ is then some pos else mapGet m k) ∨
    ((addIndices pos is m).2 = .error .throw ∧
      (∀ k i, mapGet m k = some i → mapGet (addIndices pos is m).1 k = some i) ∧
      (∀ k, mapGet (addIndices pos is m).1 k = mapGet m k ∨ mapGet (addIndices pos is m).1 k = some pos)) := by
  induction is generalizing m with
  | nil => left; simp [addIndices]
  | cons a is ih =>
    unfold addIndices
    cases hm : mapGet m a with
    | some j => right; simp
    | none =>
      simp only
      rcases ih ((a, pos) :: m) with ⟨h1, h2, h3, h4⟩ | ⟨h1, h2, h3⟩
      · left
        have hna : a ∉ is := by
          intro ha; have := h3 a ha; rw [mapGet_cons] at this; simp at this
        refine ⟨h1, List.nodup_cons.mpr ⟨hna, h2⟩, ?_, ?_⟩
        · intro i hi
          rw [List.mem_cons] at hi
          rcases hi with rfl | hi
          · exact hm
          · have := h3 i hi
            rw [mapGet_cons] at this
            split at this
            · cases this
            · exact this
        · intro k
          rw [h4 k, mapGet_cons]
          by_cases hk : k ∈ is
          · simp [hk]
          · by_cases hka : a = k
            · simp [hka]
            · have : k ≠ a := fun e => hka e.symm
              simp [hk, hka, this]
      · right
        refine ⟨h1, ?_, ?_⟩
        · intro k i hk
          apply h2
          rw [mapGet_cons]
          split
          · rename_i e; subst e; rw [hm] at hk; cases hk
          · exact hk
        · intro k
          rcases h3 k with h | h
          · rw [mapGet_cons] at h
            split at h
            · right; exact h
            · left; exact h
          · right; exact h

theorem labelToSpace_throw {o : OSI} {l : Char} {f : Fault} (h : o.labelToSpace l = .error f) : f = .throw := by
  unfold labelToSpace at h; split at h <;> cases h; rfl

theorem mapM_labelToSpace_throw {o : OSI} {ls : List Char} {f : Fault}
    (h : ls.mapM (m := Except Fault) o.labelToSpace = .error f) : f = .throw := by
  induction ls with
  | nil => simp [pure, Except.pure] at h
  | cons a ls ih =>
    rw [List.mapM_cons] at h
    cases ha : o.labelToSpace a with
    | error g =>
      rw [ha] at h; simp [bind, Except.bind] at h; subst h; exact labelToSpace_throw ha
    | ok i =>
      rw [ha] at h
      cases hl : ls.mapM (m := Except Fault) o.labelToSpace with
      | error g => rw [hl] at h; simp [bind, Except.bind] at h; subst h; exact ih hl
      | ok is => rw [hl] at h; simp [bind, Except.bind, pure, Except.pure] at h

/-- The three ways a call of `add_space` can end. -/
theorem addSpace_cases (o : OSI) (l : Char) (ft : FieldType) (st : SpaceType) (is : List Str) (el : List Char) :
    (∃ i, mapGet o.labelPos l = some i ∧ o.addSpace l ft st is el = (o, .error .throw)) ∨
    (mapGet o.labelPos l = none ∧ (o.addSpace l ft st is el).2 = .error .throw ∧
      (o.addSpace l ft st is el).1.spaces = o.spaces ∧
      (o.addSpace l ft st is el).1.labelPos = (l, o.numSpaces) :: o.labelPos ∧
      (o.addSpace l ft st is el).1.idxPos = (addIndices o.numSpaces is o.idxPos).1) ∨
    (mapGet o.labelPos l = none ∧ (o.addSpace l ft st is el).2 = .ok () ∧
      (addIndices o.numSpaces is o.idxPos).2 = .ok () ∧
      ∃ eli, (o.addSpace l ft st is el).1 =
        ⟨o.spaces ++ [⟨l, ft, st, is, eli⟩], (l, o.numSpaces) :: o.labelPos,
          (addIndices o.numSpaces is o.idxPos).1⟩) := by
  unfold addSpace
  cases h1 : mapGet o.labelPos l with
  | some i => left; exact ⟨i, rfl, rfl⟩
  | none =>
    right
    simp only
    cases h2 : addIndices o.numSpaces is o.idxPos with
    | mk m r =>
      have hr : (addIndices o.numSpaces is o.idxPos).2 = r := by rw [h2]
      cases r with
      | error f =>
        left
        have : f = .throw := by
          rcases addIndices_spec o.numSpaces is o.idxPos with h | h
          · rw [h2] at h; simp at h
          · rw [h2] at h; simp at h; exact h.1
        subst this
        simp
      | ok u =>
        simp only
        split
        · rename_i f hf
          left
          rw [mapM_labelToSpace_throw hf]
          simp
        · rename_i eli _
          right
          exact ⟨trivial, rfl, trivial, eli, rfl⟩

end OSI
end Wicked
