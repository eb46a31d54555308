import Verif.Proofs.Orbital
import Verif.Proofs.Str
import Verif.Model.Index
/-! # Properties C10-C13: orbital spaces and index strings -/
namespace Wicked
open OSI

/-! ## C10 -/

/-- Specification: what was registered since the last reset, in order. -/
def regSpec (ops : List RegOp) : List (Char × FieldType × SpaceType × List Str) :=
  ops.foldl (fun acc op => match op with
    | .reset => []
    | .add l f s i _ => acc ++ [(l, f, s, i)]) []

/-- observable part of a space -/
def obsSpace (s : OrbitalSpace) : Char × FieldType × SpaceType × List Str :=
  (s.label, s.fieldType, s.spaceType, s.indices)

/-- invariant of all registries (also after failed calls): every registered space can be found by
its label, labels and index names are distinct -/
structure RegInv (o : OSI) : Prop where
  labels : (o.spaces.map (·.label)).Nodup
  names : (o.spaces.flatMap (·.indices)).Nodup
  pos : ∀ (n : Nat) s, o.spaces[n]? = some s → mapGet o.labelPos s.label = some (n : Int)
  idx : ∀ (n : Nat) s, o.spaces[n]? = some s → ∀ i ∈ s.indices, mapGet o.idxPos i = some (n : Int)

/-- additional invariant of registries without failed calls -/
structure RegExact (o : OSI) : Prop where
  pos' : ∀ l i, mapGet o.labelPos l = some i → ∃ (n : Nat) (s : OrbitalSpace),
    o.spaces[n]? = some s ∧ s.label = l ∧ i = n
  idx' : ∀ k i, mapGet o.idxPos k = some i → ∃ (n : Nat) (s : OrbitalSpace),
    o.spaces[n]? = some s ∧ k ∈ s.indices

theorem regInv_empty : RegInv OSI.empty := ⟨by simp [OSI.empty], by simp [OSI.empty], by simp [OSI.empty], by simp [OSI.empty]⟩
theorem regExact_empty : RegExact OSI.empty := ⟨by simp [OSI.empty, mapGet], by simp [OSI.empty, mapGet]⟩

theorem regInv_step (o : OSI) (op : RegOp) (h : RegInv o) : RegInv (op.step o).1 := by
  cases op with
  | reset => exact regInv_empty
  | add l ft st is el =>
    simp only [RegOp.step]
    rcases addSpace_cases o l ft st is el with ⟨i, _, h2⟩ | ⟨h1, h2, h3, h4, h5⟩ | ⟨h1, h2, h3, eli, h4⟩
    · rw [h2]; exact h
    · refine ⟨by rw [h3]; exact h.labels, by rw [h3]; exact h.names, ?_, ?_⟩
      · intro n s hs
        rw [h3] at hs
        have := h.pos n s hs
        rw [h4, mapGet_cons]
        split
        · rename_i e; rw [← e, h1] at this; cases this
        · exact this
      · intro n s hs i hi
        rw [h3] at hs
        have := h.idx n s hs i hi
        rw [h5]
        rcases addIndices_spec o.numSpaces is o.idxPos with ⟨_, _, g3, g4⟩ | ⟨_, g2, _⟩
        · rw [g4]
          split
          · rename_i hmem; rw [g3 i hmem] at this; cases this
          · exact this
        · exact g2 _ _ this
    · rw [h4]
      rcases addIndices_spec o.numSpaces is o.idxPos with ⟨_, g2, g3, g4⟩ | ⟨g1, _⟩
      swap
      · rw [h3] at g1; cases g1
      refine ⟨?_, ?_, ?_, ?_⟩
      · rw [List.map_append, List.nodup_append]
        refine ⟨h.labels, by simp, ?_⟩
        intro a ha b hb
        simp at hb; subst hb
        rintro rfl
        obtain ⟨s, hs, e⟩ := List.mem_map.mp ha
        obtain ⟨n, hn⟩ := List.getElem?_of_mem hs
        have := h.pos n s hn
        rw [e, h1] at this; cases this
      · rw [List.flatMap_append, List.nodup_append]
        refine ⟨h.names, by simpa using g2, ?_⟩
        intro a ha b hb
        simp at hb
        rintro rfl
        obtain ⟨s, hs, e⟩ := List.mem_flatMap.mp ha
        obtain ⟨n, hn⟩ := List.getElem?_of_mem hs
        have := h.idx n s hn _ e
        rw [g3 _ hb] at this; cases this
      · intro n s hs
        simp only at hs ⊢
        rw [mapGet_cons]
        by_cases hn : n < o.spaces.length
        · rw [List.getElem?_append_left hn] at hs
          have := h.pos n s hs
          split
          · rename_i e; rw [← e, h1] at this; cases this
          · exact this
        · rw [List.getElem?_append_right (by omega)] at hs
          have h0 : n - o.spaces.length = 0 := by
            by_contra hc
            rw [List.getElem?_eq_none (by simp; omega)] at hs; cases hs
          rw [h0] at hs; simp at hs; subst hs
          simp [OSI.numSpaces]; omega
      · intro n s hs i hi
        simp only at hs ⊢
        rw [g4]
        by_cases hn : n < o.spaces.length
        · rw [List.getElem?_append_left hn] at hs
          have := h.idx n s hs i hi
          split
          · rename_i hmem; rw [g3 i hmem] at this; cases this
          · exact this
        · rw [List.getElem?_append_right (by omega)] at hs
          have h0 : n - o.spaces.length = 0 := by
            by_contra hc
            rw [List.getElem?_eq_none (by simp; omega)] at hs; cases hs
          rw [h0] at hs; simp at hs; subst hs
          rw [if_pos hi]
          simp [OSI.numSpaces]; omega

theorem regExact_step (o : OSI) (op : RegOp) (h : RegExact o) (hok : (op.step o).2 = .ok ()) :
    RegExact (op.step o).1 := by
  cases op with
  | reset => exact regExact_empty
  | add l ft st is el =>
    simp only [RegOp.step] at *
    rcases addSpace_cases o l ft st is el with ⟨i, _, h2⟩ | ⟨h1, h2, _⟩ | ⟨h1, h2, h3, eli, h4⟩
    · rw [h2] at hok; cases hok
    · rw [h2] at hok; cases hok
    · rw [h4]
      rcases addIndices_spec o.numSpaces is o.idxPos with ⟨_, g2, g3, g4⟩ | ⟨g1, _⟩
      swap
      · rw [h3] at g1; cases g1
      refine ⟨?_, ?_⟩
      · intro l' i hi
        simp only at hi ⊢
        rw [mapGet_cons] at hi
        split at hi
        · rename_i e
          subst e
          cases hi
          exact ⟨o.spaces.length, ⟨l, ft, st, is, eli⟩, by simp, rfl, rfl⟩
        · obtain ⟨n, s, hs, e1, e2⟩ := h.pos' l' i hi
          refine ⟨n, s, ?_, e1, e2⟩
          rw [List.getElem?_append_left (List.getElem?_eq_some_iff.mp hs).1]; exact hs
      · intro k i hi
        simp only at hi ⊢
        rw [g4] at hi
        split at hi
        · rename_i hk
          exact ⟨o.spaces.length, ⟨l, ft, st, is, eli⟩, by simp, hk⟩
        · obtain ⟨n, s, hs, e1⟩ := h.idx' k i hi
          refine ⟨n, s, ?_, e1⟩
          rw [List.getElem?_append_left (List.getElem?_eq_some_iff.mp hs).1]; exact hs

theorem regInv_run (ops : List RegOp) (o : OSI) (h : RegInv o) : RegInv (runReg o ops) := by
  induction ops generalizing o with
  | nil => exact h
  | cons op ops ih => exact ih _ (regInv_step o op h)

theorem regExact_run (ops : List RegOp) (o : OSI) (h : RegExact o) (hok : allOk o ops) :
    RegExact (runReg o ops) := by
  induction ops generalizing o with
  | nil => exact h
  | cons op ops ih => exact ih _ (regExact_step o op h hok.1) hok.2

theorem regSpec_run (ops : List RegOp) (o : OSI) (hok : allOk o ops) :
    (runReg o ops).spaces.map obsSpace =
      ops.foldl (fun acc op => match op with
        | .reset => []
        | .add l f s i _ => acc ++ [(l, f, s, i)]) (o.spaces.map obsSpace) := by
  induction ops generalizing o with
  | nil => rfl
  | cons op ops ih =>
    simp only [runReg, List.foldl_cons]
    rw [ih _ hok.2]
    congr 1
    cases op with
    | reset => rfl
    | add l ft st is el =>
      have h := hok.1
      simp only [RegOp.step] at *
      rcases addSpace_cases o l ft st is el with ⟨i, _, h2⟩ | ⟨h1, h2, _⟩ | ⟨h1, h2, h3, eli, h4⟩
      · rw [h2] at h; cases h
      · rw [h2] at h; cases h
      · rw [h4]; simp [obsSpace]

/-- C10: after any history of reset and successful add_space calls the registry contains exactly
what was added since the last reset, in order; labels and index names are distinct; `label` and
`label_to_space` are mutually inverse and every other label is rejected. -/
theorem C10_registry_consistent (ops : List RegOp) (hok : allOk OSI.empty ops) :
    let o := runReg OSI.empty ops
    o.spaces.map obsSpace = regSpec ops ∧
    o.numSpaces = (regSpec ops).length ∧
    (o.spaces.map (·.label)).Nodup ∧
    (o.spaces.flatMap (·.indices)).Nodup ∧
    (∀ l i, o.labelToSpace l = .ok i ↔ (0 ≤ i ∧ i < o.numSpaces ∧ o.label i = .ok l)) ∧
    (∀ l, l ∉ o.spaces.map (·.label) → o.labelToSpace l = .error .throw) := by
  intro o
  have hI : RegInv o := regInv_run ops _ regInv_empty
  have hE : RegExact o := regExact_run ops _ regExact_empty hok
  have hS : o.spaces.map obsSpace = regSpec ops := regSpec_run ops _ hok
  have hlab : ∀ l i, o.labelToSpace l = .ok i ↔ mapGet o.labelPos l = some i := by
    intro l i; unfold labelToSpace; cases mapGet o.labelPos l <;> simp
  refine ⟨hS, ?_, hI.labels, hI.names, ?_, ?_⟩
  · rw [← hS, List.length_map]; rfl
  · intro l i
    rw [hlab]
    constructor
    · intro h
      obtain ⟨n, s, hs, e1, e2⟩ := hE.pos' l i h
      have hn := (List.getElem?_eq_some_iff.mp hs).1
      subst e2
      refine ⟨by omega, by unfold OSI.numSpaces; omega, ?_⟩
      simp [OSI.label, OSI.space, hs, bind, Except.bind, pure, Except.pure, e1]
    · rintro ⟨h1, h2, h3⟩
      unfold OSI.label OSI.space at h3
      rw [if_pos h1] at h3
      cases hs : o.spaces[i.toNat]? with
      | none => rw [hs] at h3; simp [bind, Except.bind] at h3
      | some s =>
        rw [hs] at h3
        simp [bind, Except.bind, pure, Except.pure] at h3
        have := hI.pos _ s hs
        rw [h3] at this
        rw [this]; congr 1; omega
  · intro l hl
    unfold labelToSpace
    cases hm : mapGet o.labelPos l with
    | none => rfl
    | some i =>
      obtain ⟨n, s, hs, e1, _⟩ := hE.pos' l i hm
      exact absurd (List.mem_map.mpr ⟨s, List.mem_of_getElem? hs, e1⟩) hl

/-- C10 (any history, failed calls included): labels and index names of the registered spaces stay
distinct and every registered label is found at its position. -/
theorem C10_labels_distinct_any_history (ops : List RegOp) :
    let o := runReg OSI.empty ops
    (o.spaces.map (·.label)).Nodup ∧ (o.spaces.flatMap (·.indices)).Nodup ∧
    (∀ (n : Nat) s, o.spaces[n]? = some s → o.labelToSpace s.label = .ok (n : Int)) := by
  intro o
  have hI : RegInv o := regInv_run ops _ regInv_empty
  refine ⟨hI.labels, hI.names, fun n s hs => ?_⟩
  unfold labelToSpace; rw [hI.pos n s hs]

/-- a concrete history: the usual two spaces -/
def ccHistory : List RegOp :=
  [.add 'o' .fermion .occupied [['i'], ['j']] [], .reset,
   .add 'o' .fermion .occupied [['i'], ['j']] [], .add 'v' .fermion .unoccupied [['a'], ['b']] []]

example : allOk OSI.empty ccHistory ∧ (runReg OSI.empty ccHistory).numSpaces = 2 := by
  refine ⟨⟨?_, ?_, ?_, ?_, trivial⟩, ?_⟩ <;> decide

/-! ## C11 -/

/-- C11 (partial): a failed `add_space` does not change the registered spaces (`num_spaces`,
labels, indices) nor the position of any label that was known before; if the label itself was
already defined nothing changes at all.  The full statement ("the observable registry is
unchanged") is false, see `C11_failed_add_changes_registry`. -/
theorem C11_failed_add_partial (o : OSI) (l : Char) (ft : FieldType) (st : SpaceType) (is : List Str)
    (el : List Char) (f : Fault) (hf : (o.addSpace l ft st is el).2 = .error f) :
    f = .throw ∧ (o.addSpace l ft st is el).1.spaces = o.spaces ∧
    (∀ l' i, o.labelToSpace l' = .ok i → (o.addSpace l ft st is el).1.labelToSpace l' = .ok i) ∧
    (∀ i, o.labelToSpace l = .ok i → (o.addSpace l ft st is el).1 = o) := by
  have hlab : ∀ (o : OSI) l i, o.labelToSpace l = .ok i ↔ mapGet o.labelPos l = some i := by
    intro o l i; unfold labelToSpace; cases mapGet o.labelPos l <;> simp
  rcases addSpace_cases o l ft st is el with ⟨i, h1, h2⟩ | ⟨h1, h2, h3, h4, h5⟩ | ⟨h1, h2, _⟩
  · rw [h2] at hf ⊢; cases hf; exact ⟨rfl, rfl, fun _ _ h => h, fun _ _ => rfl⟩
  · rw [h2] at hf; cases hf
    refine ⟨rfl, h3, ?_, ?_⟩
    · intro l' i h
      rw [hlab] at h ⊢
      rw [h4, mapGet_cons]
      split
      · rename_i e; rw [← e, h1] at h; cases h
      · exact h
    · intro i h; rw [hlab, h1] at h; cases h
  · rw [h2] at hf; cases hf

/-- C11 is false: whenever `add_space` fails on a label that was not defined (because of an index
already in use or an unknown elementary space), the label stays behind: `label_to_space`, which
rejected it before, now returns `num_spaces`, a position where there is no space, and every later
attempt to define the label fails, whatever its other arguments. -/
theorem C11_failed_add_changes_registry (o : OSI) (l : Char) (ft : FieldType) (st : SpaceType)
    (is : List Str) (el : List Char) (f : Fault) (hf : (o.addSpace l ft st is el).2 = .error f)
    (hnew : o.labelToSpace l = .error .throw) :
    (o.addSpace l ft st is el).1.labelToSpace l = .ok o.numSpaces ∧
    (o.addSpace l ft st is el).1.label o.numSpaces = .error .ub ∧
    ∀ ft' st' is' el', ((o.addSpace l ft st is el).1.addSpace l ft' st' is' el').2 = .error .throw := by
  rcases addSpace_cases o l ft st is el with ⟨i, h1, h2⟩ | ⟨h1, h2, h3, h4, h5⟩ | ⟨h1, h2, _⟩
  · unfold labelToSpace at hnew; rw [h1] at hnew; cases hnew
  · have hget : mapGet (o.addSpace l ft st is el).1.labelPos l = some o.numSpaces := by
      rw [h4, mapGet_cons]; simp
    refine ⟨?_, ?_, ?_⟩
    · unfold labelToSpace; rw [hget]
    · unfold OSI.label OSI.space
      rw [h3, if_pos (by unfold OSI.numSpaces; omega)]
      have : o.spaces[o.numSpaces.toNat]? = none := by
        rw [List.getElem?_eq_none_iff]; unfold OSI.numSpaces; omega
      rw [this]; rfl
    · intro ft' st' is' el'
      rcases addSpace_cases (o.addSpace l ft st is el).1 l ft' st' is' el' with ⟨i, g1, g2⟩ | ⟨g1, _⟩ | ⟨g1, _⟩
      · rw [g2]
      · rw [hget] at g1; cases g1
      · rw [hget] at g1; cases g1
  · rw [h2] at hf; cases hf

/-- C11 witness: after a failed call for 'v' and a successful one for 'x', the label 'v' silently
denotes the space 'x'. -/
theorem C11_failed_add_alias_witness :
    let o := runReg OSI.empty [.add 'o' .fermion .occupied [['i']] [],
      .add 'v' .fermion .unoccupied [['i']] [], .add 'x' .fermion .unoccupied [['a']] []]
    o.labelToSpace 'v' = .ok 1 ∧ o.label 1 = .ok 'x' := by decide

example : (OSI.addSpace (runReg OSI.empty ccHistory) 'x' .fermion .general [['i']] []).2 = .error .throw ∧
    (runReg OSI.empty ccHistory).labelToSpace 'x' = .error .throw := by decide

/-! ## C12 -/

theorem matchIndex_iff (s : Str) (c : Char) (d : Str) :
    matchIndex s = some (c, d) ↔ isAlpha c = true ∧ d ≠ [] ∧ (∀ x ∈ d, isDigit x = true) ∧
      (s = c :: d ∨ s = c :: '_' :: d) := by
  unfold matchIndex
  cases s with
  | nil => simp
  | cons a t =>
    simp only
    have hud : isDigit '_' = false := by decide
    by_cases ha : isAlpha a = true
    · rw [if_pos ha]
      split
      · rename_i t'
        constructor
        · intro h
          split at h
          · rename_i hc
            cases h
            simp only [Bool.and_eq_true, Bool.not_eq_true', List.isEmpty_eq_false_iff, List.all_eq_true] at hc
            exact ⟨ha, hc.1, hc.2, Or.inr rfl⟩
          · cases h
        · rintro ⟨h1, h2, h3, h4⟩
          rcases h4 with h4 | h4
          · simp at h4
            have := h3 '_' (by rw [← h4.2]; simp)
            rw [hud] at this; cases this
          · simp at h4
            obtain ⟨rfl, rfl⟩ := h4
            rw [if_pos]
            simp only [Bool.and_eq_true, Bool.not_eq_true', List.isEmpty_eq_false_iff, List.all_eq_true]
            exact ⟨h2, h3⟩
      · rename_i hno
        constructor
        · intro h
          split at h
          · rename_i hc
            cases h
            simp only [Bool.and_eq_true, Bool.not_eq_true', List.isEmpty_eq_false_iff, List.all_eq_true] at hc
            exact ⟨ha, hc.1, hc.2, Or.inl rfl⟩
          · cases h
        · rintro ⟨h1, h2, h3, h4⟩
          rcases h4 with h4 | h4
          · simp at h4
            obtain ⟨rfl, rfl⟩ := h4
            rw [if_pos]
            simp only [Bool.and_eq_true, Bool.not_eq_true', List.isEmpty_eq_false_iff, List.all_eq_true]
            exact ⟨h2, h3⟩
          · simp at h4
            exact absurd h4.2 (hno _)
    · rw [if_neg ha]
      simp only [reduceCtorEq, false_iff, not_and, not_or]
      intro h1 _ _
      constructor <;> (rintro h; cases h; exact ha h1)

/-- C12: exact description of the strings accepted by `index(...)` and of its result; everything
else is rejected by an exception. -/
theorem C12_make_index_exact (o : OSI) (s : Str) :
    (∀ i, makeIndex o s = .ok i ↔ ∃ c d, isAlpha c = true ∧ d ≠ [] ∧ (∀ x ∈ d, isDigit x = true) ∧
      (s = c :: d ∨ s = c :: '_' :: d) ∧ o.labelToSpace c = .ok i.space ∧
      digitsVal d ≤ intMax ∧ i.pos = digitsVal d) ∧
    (∀ f, makeIndex o s = .error f → f = .throw) := by
  unfold makeIndex
  cases hm : matchIndex s with
  | none =>
    refine ⟨fun i => ⟨by simp, ?_⟩, by intro f h; cases h; rfl⟩
    rintro ⟨c, d, h1, h2, h3, h4, -⟩
    have := (matchIndex_iff s c d).mpr ⟨h1, h2, h3, h4⟩
    rw [hm] at this; cases this
  | some p =>
    obtain ⟨c, d⟩ := p
    obtain ⟨h1, h2, h3, h4⟩ := (matchIndex_iff s c d).mp hm
    simp only
    constructor
    · intro i
      constructor
      · intro h
        cases hl : o.labelToSpace c with
        | error f => rw [hl] at h; simp [bind, Except.bind] at h
        | ok sp =>
          rw [hl] at h
          by_cases hd : digitsVal d ≤ intMax
          · simp [bind, Except.bind, stoi, hd, pure, Except.pure] at h
            subst h
            exact ⟨c, d, h1, h2, h3, h4, hl, hd, rfl⟩
          · simp [bind, Except.bind, stoi, hd] at h
      · rintro ⟨c', d', g1, g2, g3, g4, g5, g6, g7⟩
        have := (matchIndex_iff s c' d').mpr ⟨g1, g2, g3, g4⟩
        rw [hm] at this
        simp at this
        obtain ⟨rfl, rfl⟩ := this
        rw [g5]
        simp [bind, Except.bind, stoi, g6, pure, Except.pure, ← g7]
    · intro f h
      cases hl : o.labelToSpace c with
      | error g => rw [hl] at h; simp [bind, Except.bind] at h; subst h; exact labelToSpace_throw hl
      | ok sp =>
        rw [hl] at h
        by_cases hd : digitsVal d ≤ intMax
        · simp [bind, Except.bind, stoi, hd, pure, Except.pure] at h
        · simp [bind, Except.bind, stoi, hd] at h; exact h.symm

/-- C12: in every registry that can arise, the printed form of an index of a registered space with a
letter label parses back to the index, with and without the underscore. -/
theorem C12_index_roundtrip (ops : List RegOp) (i : Index) (l : Char) (hp : 0 ≤ i.pos)
    (hmax : i.pos ≤ intMax) :
    let o := runReg OSI.empty ops
    o.label i.space = .ok l → isAlpha l = true →
    ∃ s, i.str o = .ok s ∧ makeIndex o s = .ok i ∧
      makeIndex o (l :: '_' :: intStr i.pos) = .ok i := by
  intro o hl ha
  have hI : RegInv o := regInv_run ops _ regInv_empty
  have hls : o.labelToSpace l = .ok i.space := by
    unfold OSI.label OSI.space at hl
    split at hl
    · rename_i h0
      cases hs : o.spaces[i.space.toNat]? with
      | none => rw [hs] at hl; simp [bind, Except.bind] at hl
      | some s =>
        rw [hs] at hl; simp [bind, Except.bind, pure, Except.pure] at hl
        have := hI.pos _ s hs
        rw [hl] at this
        unfold labelToSpace; rw [this]; simp; omega
    · simp [bind, Except.bind] at hl
  have hint : intStr i.pos = natStr i.pos.natAbs := by
    unfold intStr; rw [if_neg (by omega)]
  refine ⟨l :: intStr i.pos, ?_, ?_, ?_⟩
  · unfold Index.str; rw [hl]; rfl
  · rw [(C12_make_index_exact o _).1 i]
    exact ⟨l, intStr i.pos, ha, by rw [hint]; exact natStr_ne_nil _, by rw [hint]; exact natStr_digits _,
      Or.inl rfl, hls, by rw [hint, digitsVal_natStr]; omega, by rw [hint, digitsVal_natStr]; omega⟩
  · rw [(C12_make_index_exact o _).1 i]
    exact ⟨l, intStr i.pos, ha, by rw [hint]; exact natStr_ne_nil _, by rw [hint]; exact natStr_digits _,
      Or.inr rfl, hls, by rw [hint, digitsVal_natStr]; omega, by rw [hint, digitsVal_natStr]; omega⟩

example : (runReg OSI.empty ccHistory).label 1 = .ok 'v' ∧
    makeIndex (runReg OSI.empty ccHistory) ['v', '_', '1', '2'] = .ok ⟨1, 12⟩ := by decide

/-! ## C13 -/

theorem intStr_inj {a b : Int} (h : intStr a = intStr b) : a = b := by
  have hdash : ∀ n : Nat, '-' ∉ natStr n := by
    intro n hm; have := natStr_digits n _ hm; revert this; decide
  unfold intStr at h
  split at h <;> split at h
  · simp at h; have := natStr_inj h; omega
  · exact absurd (by rw [← h]; simp) (hdash b.natAbs)
  · exact absurd (by rw [h]; simp) (hdash a.natAbs)
  · have := natStr_inj h; omega

/-- C13: in every registry that can arise, if no user-chosen index name looks like `l_{n}`, two
different indices of registered spaces have different names. -/
theorem C13_index_label_injective (ops : List RegOp) (i j : Index) :
    let o := runReg OSI.empty ops
    (∀ s ∈ o.spaces, ∀ name ∈ s.indices, ∀ (c : Char) (n : Int),
      name ≠ c :: '_' :: '{' :: (intStr n ++ ['}'])) →
    (0 ≤ i.space ∧ i.space < o.numSpaces) → (0 ≤ j.space ∧ j.space < o.numSpaces) →
    ∃ a b, i.latex o = .ok a ∧ j.latex o = .ok b ∧ (a = b → i = j) := by
  intro o hgen hi hj
  have hI : RegInv o := regInv_run ops _ regInv_empty
  -- description of the name of one index
  have desc : ∀ k : Index, (0 ≤ k.space ∧ k.space < o.numSpaces) → ∃ s a,
      o.spaces[k.space.toNat]? = some s ∧ k.latex o = .ok a ∧
      ((0 ≤ k.pos ∧ s.indices[k.pos.toNat]? = some a) ∨
        (a = s.label :: '_' :: '{' :: (intStr k.pos ++ ['}']))) := by
    intro k hk
    have hlt : k.space.toNat < o.spaces.length := by unfold OSI.numSpaces at hk; omega
    have hs : o.spaces[k.space.toNat]? = some o.spaces[k.space.toNat] := List.getElem?_eq_getElem hlt
    have hsp : o.space k.space = .ok o.spaces[k.space.toNat] := by
      unfold OSI.space; rw [if_pos hk.1, hs]
    refine ⟨o.spaces[k.space.toNat], ?_⟩
    unfold Index.latex OSI.indexLabel OSI.indices OSI.label
    rw [hsp]
    simp only [bind, Except.bind, pure, Except.pure]
    split
    · rename_i h0
      cases hn : o.spaces[k.space.toNat].indices[k.pos.toNat]? with
      | some a => exact ⟨a, hs, rfl, Or.inl ⟨h0, rfl⟩⟩
      | none => exact ⟨_, hs, rfl, Or.inr rfl⟩
    · exact ⟨_, hs, rfl, Or.inr rfl⟩
  obtain ⟨s, a, hs, ha, hda⟩ := desc i hi
  obtain ⟨t, b, ht, hb, hdb⟩ := desc j hj
  refine ⟨a, b, ha, hb, ?_⟩
  intro hab
  subst hab
  have hsm := List.mem_of_getElem? hs
  have htm := List.mem_of_getElem? ht
  rcases hda with ⟨p1, q1⟩ | q1 <;> rcases hdb with ⟨p2, q2⟩ | q2
  · -- both user names
    have e1 := hI.idx _ s hs a (List.mem_of_getElem? q1)
    have e2 := hI.idx _ t ht a (List.mem_of_getElem? q2)
    rw [e1] at e2
    have hsp : i.space = j.space := by simp at e2; omega
    have : s = t := by rw [hsp, ht] at hs; cases hs; rfl
    subst this
    have hnd : s.indices.Nodup := by
      have := hI.names
      exact (List.nodup_flatMap.mp this).1 s hsm
    have hpos : i.pos.toNat = j.pos.toNat := by
      obtain ⟨l1, g1⟩ := List.getElem?_eq_some_iff.mp q1
      obtain ⟨l2, g2⟩ := List.getElem?_eq_some_iff.mp q2
      exact (List.Nodup.getElem_inj_iff hnd).mp (g1.trans g2.symm)
    have : i.pos = j.pos := by omega
    cases i; cases j; simp_all
  · exact absurd q2 (hgen s hsm a (List.mem_of_getElem? q1) _ _)
  · exact absurd q1 (hgen t htm a (List.mem_of_getElem? q2) _ _)
  · rw [q1] at q2
    simp at q2
    obtain ⟨hl, hp⟩ := q2
    have hpos := intStr_inj hp
    have e1 := hI.pos _ s hs
    have e2 := hI.pos _ t ht
    rw [hl, e2] at e1
    have hsp : i.space = j.space := by simp at e1; omega
    cases i; cases j; simp_all

/-- C13: the hypothesis is needed: a user name of the form `l_{n}` can collide. -/
theorem C13_collision_witness :
    let o := runReg OSI.empty [.add 'o' .fermion .occupied [['i'], ['o', '_', '{', '2', '}']] []]
    Index.latex o ⟨0, 1⟩ = Index.latex o ⟨0, 2⟩ := by decide

example : ∀ s ∈ (runReg OSI.empty ccHistory).spaces, ∀ name ∈ s.indices, ∀ (c : Char) (n : Int),
      name ≠ c :: '_' :: '{' :: (intStr n ++ ['}']) := by
  have key : ∀ s ∈ (runReg OSI.empty ccHistory).spaces, ∀ name ∈ s.indices, name.length = 1 := by decide
  intro s hs name hn c n h
  have hl := key s hs name hn
  rw [h] at hl; simp at hl

end Wicked
