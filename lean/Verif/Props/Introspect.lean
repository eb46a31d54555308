import Verif.Spec.Introspect
import Verif.Model.PyCompile
import Verif.Props.Registry
import Verif.Proofs.Lin
import Verif.Proofs.Print
/-! # Property C79: what the registry shows is what was registered -/
namespace Wicked
open CppLt CppEq OSI

/-! ## names of types -/

theorem str_eq_iff (a b : Str) : eq a b = true ↔ a = b := by
  induction a generalizing b with
  | nil => cases b <;> simp [eq, listEq]
  | cons x a ih =>
    cases b with
    | nil => simp [eq, listEq]
    | cons y b =>
      have := ih b
      simp only [eq] at this
      simp [eq, listEq, this]

theorem toList_eq {s t : String} : s.toList = t.toList ↔ s = t := ⟨fun h => String.toList_inj.1 h, fun h => by rw [h]⟩

/-- C79: `add_space` understands exactly the documented names of the field types -/
theorem C79_field_type_names (s : String) :
    (∀ f, stringToFieldType s.toList = .ok f ↔ namesField s f) ∧
    ((∀ f, ¬ namesField s f) → stringToFieldType s.toList = .error .throw) := by
  have key : stringToFieldType s.toList =
      if s = "fermion" then .ok .fermion else if s = "boson" then .ok .boson else .error .throw := by
    unfold stringToFieldType
    by_cases h1 : s = "fermion"
    · subst h1; rfl
    by_cases h2 : s = "boson"
    · subst h2; rfl
    have e1 : eq s.toList FieldType.fermion.str = false := by
      rw [← Bool.not_eq_true, str_eq_iff]; exact fun h => h1 (toList_eq.1 h)
    have e2 : eq s.toList FieldType.boson.str = false := by
      rw [← Bool.not_eq_true, str_eq_iff]; exact fun h => h2 (toList_eq.1 h)
    simp [List.find?, e1, e2, h1, h2]
  constructor
  · intro f
    rw [key]
    by_cases h1 : s = "fermion"
    · subst h1; cases f <;> simp [namesField]
    by_cases h2 : s = "boson"
    · subst h2; cases f <;> simp [namesField]
    simp [namesField, h1, h2]
  · intro h
    rw [key, if_neg, if_neg]
    · rintro rfl; exact h .boson (Or.inr ⟨rfl, rfl⟩)
    · rintro rfl; exact h .fermion (Or.inl ⟨rfl, rfl⟩)

/-- C79: `add_space` understands exactly the documented names of the space types -/
theorem C79_space_type_names (s : String) :
    (∀ t, stringToSpaceType s.toList = .ok t ↔ namesSpace s t) ∧
    ((∀ t, ¬ namesSpace s t) → stringToSpaceType s.toList = .error .throw) := by
  have key : stringToSpaceType s.toList =
      if s = "occupied" then .ok .occupied else if s = "unoccupied" then .ok .unoccupied
      else if s = "general" then .ok .general else .error .throw := by
    unfold stringToSpaceType
    by_cases h1 : s = "occupied"
    · subst h1; rfl
    by_cases h2 : s = "unoccupied"
    · subst h2; rfl
    by_cases h3 : s = "general"
    · subst h3; rfl
    have e1 : eq s.toList SpaceType.occupied.str = false := by
      rw [← Bool.not_eq_true, str_eq_iff]; exact fun h => h1 (toList_eq.1 h)
    have e2 : eq s.toList SpaceType.unoccupied.str = false := by
      rw [← Bool.not_eq_true, str_eq_iff]; exact fun h => h2 (toList_eq.1 h)
    have e3 : eq s.toList SpaceType.general.str = false := by
      rw [← Bool.not_eq_true, str_eq_iff]; exact fun h => h3 (toList_eq.1 h)
    simp [List.find?, e1, e2, e3, h1, h2, h3]
  constructor
  · intro f
    rw [key]
    by_cases h1 : s = "occupied"
    · subst h1; cases f <;> simp [namesSpace]
    by_cases h2 : s = "unoccupied"
    · subst h2; cases f <;> simp [namesSpace]
    by_cases h3 : s = "general"
    · subst h3; cases f <;> simp [namesSpace]
    simp [namesSpace, h1, h2, h3]
  · intro h
    rw [key, if_neg, if_neg, if_neg]
    · rintro rfl; exact h .general (Or.inr (Or.inr ⟨rfl, rfl⟩))
    · rintro rfl; exact h .unoccupied (Or.inr (Or.inl ⟨rfl, rfl⟩))
    · rintro rfl; exact h .occupied (Or.inl ⟨rfl, rfl⟩)

/-- C79: the Python function `add_space` given two valid names registers a space of these types; given any other
name it raises an exception and the registry stays as it was -/
theorem C79_add_space_by_name (o : OSI) (l : Char) (fs ss : String) (is : List Str) (el : List Char) :
    (∀ f t, namesField fs f → namesSpace ss t →
      PyAdd.call o ⟨l, fs.toList, ss.toList, is, el⟩ = (RegOp.add l f t is el).step o) ∧
    (((∀ f, ¬ namesField fs f) ∨ (∀ t, ¬ namesSpace ss t)) →
      PyAdd.call o ⟨l, fs.toList, ss.toList, is, el⟩ = (o, .error .throw)) := by
  constructor
  · intro f t hf ht
    simp only [PyAdd.call, ((C79_field_type_names fs).1 f).2 hf, ((C79_space_type_names ss).1 t).2 ht, RegOp.step]
  · intro h
    simp only [PyAdd.call]
    by_cases hf : ∀ f, ¬ namesField fs f
    · rw [(C79_field_type_names fs).2 hf]
    · push Not at hf
      obtain ⟨f, hf⟩ := hf
      rw [((C79_field_type_names fs).1 f).2 hf]
      rcases h with h | h
      · exact absurd hf (h f)
      · simp only [(C79_space_type_names ss).2 h]

example : namesField "fermion" .fermion ∧ namesSpace "general" .general ∧ ∀ f, ¬ namesField "Fermion" f :=
  ⟨Or.inl ⟨rfl, rfl⟩, Or.inr (Or.inr ⟨rfl, rfl⟩), by intro f; simp [namesField]⟩

/-! ## `to_dict` -/

theorem dict_inv (l : List OrbitalSpace) (d : SMap Str (List Str)) (hd : SMap.Srt d)
    (hn : ∀ s ∈ l, SMap.find [s.label] d = none) (hl : (l.map (·.label)).Nodup) :
    let r := l.foldl (fun d s => d.insert [s.label] s.indices) d
    SMap.Srt r ∧ ∀ k, SMap.find k r = match l.find? (fun s => decide ([s.label] = k)) with
      | some s => some s.indices
      | none => SMap.find k d := by
  induction l generalizing d with
  | nil => exact ⟨hd, fun k => rfl⟩
  | cons s l ih =>
    simp only [List.map_cons, List.nodup_cons] at hl
    have h := ih (d.insert [s.label] s.indices) (SMap.srt_insert hd) (by
      intro t ht
      rw [SMap.find_insert hd, if_neg]
      · exact hn t (by simp [ht])
      · rw [eqv_eq]
        intro e
        simp at e
        exact hl.1 (List.mem_map.2 ⟨t, ht, e.symm⟩)) hl.2
    refine ⟨h.1, fun k => ?_⟩
    rw [List.foldl_cons, h.2 k, List.find?_cons]
    by_cases hk : [s.label] = k
    · simp only [hk, decide_true]
      cases hf : l.find? (fun s => decide ([s.label] = k)) with
      | some t =>
        have h1 := List.mem_of_find?_eq_some hf
        have h2 := List.find?_some hf
        simp only [decide_eq_true_eq] at h2
        rw [← hk] at h2
        simp at h2
        exact absurd (List.mem_map.2 ⟨t, h1, h2⟩) hl.1
      | none => simp [SMap.find_insert hd, hk, eqv_eq]
    · simp only [hk, decide_false]
      cases hf : l.find? (fun s => decide ([s.label] = k)) with
      | some t => rfl
      | none =>
        simp only
        rw [SMap.find_insert hd, if_neg]
        rw [eqv_eq]; exact hk

/-- C79: after any history of calls `to_dict` has one entry for every registered space, its label and its index
names, and no other entry -/
theorem C79_to_dict (ops : List RegOp) :
    let o := runReg OSI.empty ops
    ∀ k v, (k, v) ∈ o.toMap ↔ ∃ s ∈ o.spaces, k = [s.label] ∧ v = s.indices := by
  intro o k v
  have hI : RegInv o := regInv_run ops _ regInv_empty
  have h := dict_inv o.spaces [] (by simp [SMap.Srt]) (by intro s _; rfl) hI.labels
  have hmem : (k, v) ∈ o.toMap ↔ SMap.find k o.toMap = some v := by
    constructor
    · intro hm; exact SMap.find_of_mem h.1 hm
    · intro hf
      obtain ⟨p, hp, e1, e2⟩ := SMap.find_some_mem hf
      rw [eqv_eq] at e1
      rw [← e1, ← e2]; exact hp
  rw [hmem]
  have h2 := h.2 k
  change SMap.find k o.toMap = _ at h2
  rw [h2]
  cases hf : o.spaces.find? (fun s => decide ([s.label] = k)) with
  | none =>
    simp only [SMap.find]
    constructor
    · intro h; cases h
    · rintro ⟨s, hs, rfl, _⟩
      have := List.find?_eq_none.1 hf s hs
      simp at this
  | some t =>
    have h1 := List.mem_of_find?_eq_some hf
    have h3 := List.find?_some hf
    simp only [decide_eq_true_eq] at h3
    constructor
    · intro h
      simp at h
      exact ⟨t, h1, h3.symm, h.symm⟩
    · rintro ⟨s, hs, hk, rfl⟩
      rw [hk] at h3
      simp at h3
      rw [List.inj_on_of_nodup_map hI.labels h1 hs h3]

/-- C79: the dictionary that `compile_einsum` starts from (Model/PyCompile) has the entries of `to_dict` -/
theorem C79_to_dict_python (ops : List RegOp) (l : Char) (v : List Str) :
    ([l], v) ∈ (runReg OSI.empty ops).toMap ↔ (l, v) ∈ (runReg OSI.empty ops).toDict := by
  rw [C79_to_dict ops]
  simp [OSI.toDict, eq_comm]

/-! ## `str` -/

theorem space_str_eq (s : OrbitalSpace) (r : Str) : s.str ++ r =
    "space label: ".toList ++ (s.label :: ("\nfield type: ".toList ++ (s.fieldType.str ++ ("\nspace type: ".toList ++
      (s.spaceType.str ++ ("\nindices: [".toList ++ (join [','] s.indices ++ ']' :: r))))))) := by
  unfold OrbitalSpace.str
  generalize "space label: ".toList = a
  generalize "\nfield type: ".toList = b
  generalize "\nspace type: ".toList = c
  generalize "\nindices: [".toList = d
  simp only [List.append_assoc, List.cons_append, List.nil_append]

theorem space_str_ne (s : OrbitalSpace) (r : Str) : s.str ++ r ≠ [] := by
  rw [space_str_eq]
  exact fun h => absurd (List.append_eq_nil_iff.1 h).2 (by simp)

theorem fieldStr_split {f f' : FieldType} {r r' : Str} (h : f.str ++ '\n' :: r = f'.str ++ '\n' :: r') : f = f' ∧ r = r' := by
  obtain ⟨h1, h2⟩ := first_split' (by cases f <;> decide) (by cases f' <;> decide) h
  refine ⟨?_, h2⟩
  cases f <;> cases f' <;> first | rfl | exact absurd h1 (by decide)

theorem spaceStr_split {f f' : SpaceType} {r r' : Str} (h : f.str ++ '\n' :: r = f'.str ++ '\n' :: r') : f = f' ∧ r = r' := by
  obtain ⟨h1, h2⟩ := first_split' (by cases f <;> decide) (by cases f' <;> decide) h
  refine ⟨?_, h2⟩
  cases f <;> cases f' <;> first | rfl | exact absurd h1 (by decide)

theorem listed_names_inj {l l' : List Str} (h : ∀ i ∈ l, i ≠ [] ∧ ',' ∉ i ∧ ']' ∉ i) (h' : ∀ i ∈ l', i ≠ [] ∧ ',' ∉ i ∧ ']' ∉ i)
    (e : join [','] l = join [','] l') : l = l' := by
  have hne : ∀ l : List Str, l ≠ [] → (∀ i ∈ l, i ≠ [] ∧ ',' ∉ i ∧ ']' ∉ i) → join [','] l ≠ [] := by
    intro l hl hh he
    match l with
    | [] => exact hl rfl
    | [a] => exact (hh a (by simp)).1 he
    | a :: b :: l => simp [join] at he
  by_cases hl : l = []
  · subst hl
    by_cases hl' : l' = []
    · exact hl'.symm
    · exact absurd e.symm (by simpa [join] using hne l' hl' h')
  · by_cases hl' : l' = []
    · subst hl'
      exact absurd e (by simpa [join] using hne l hl h)
    · exact join_single_inj hl hl' (fun w hw => (h w hw).2.1) (fun w hw => (h' w hw).2.1) e

theorem not_mem_joinSep {c : Char} {sep : Str} {l : List Str} (hs : c ∉ sep) (h : ∀ w ∈ l, c ∉ w) : c ∉ join sep l := by
  match l with
  | [] => simp [join]
  | [a] => simpa [join] using h a (by simp)
  | a :: b :: l =>
    have := not_mem_joinSep (l := b :: l) hs (fun w hw => h w (List.mem_cons_of_mem _ hw))
    simp only [join, List.mem_append]
    rintro ((h1 | h1) | h1)
    · exact h a (by simp) h1
    · exact hs h1
    · exact this h1

theorem space_str_split {s s' : OrbitalSpace} {r r' : Str}
    (h : ∀ i ∈ s.indices, i ≠ [] ∧ ',' ∉ i ∧ ']' ∉ i) (h' : ∀ i ∈ s'.indices, i ≠ [] ∧ ',' ∉ i ∧ ']' ∉ i)
    (e : s.str ++ r = s'.str ++ r') : s.view = s'.view ∧ r = r' := by
  rw [space_str_eq, space_str_eq] at e
  have e1 := List.append_cancel_left e
  rw [List.cons.injEq] at e1
  obtain ⟨el, e1⟩ := e1
  have e2 := List.append_cancel_left e1
  obtain ⟨ef, e3⟩ := fieldStr_split e2
  have e4 := List.append_cancel_left (as := "space type: ".toList) e3
  obtain ⟨es, e5⟩ := spaceStr_split e4
  have e6 := List.append_cancel_left (as := "indices: [".toList) e5
  obtain ⟨ei, er⟩ := first_split' (not_mem_joinSep (by decide) (fun w hw => (h w hw).2.2)) (not_mem_joinSep (by decide) (fun w hw => (h' w hw).2.2)) e6
  exact ⟨by simp [OrbitalSpace.view, el, ef, es, listed_names_inj h h' ei], er⟩

theorem registry_str_inj : ∀ {l l' : List OrbitalSpace}, (∀ s ∈ l, ∀ i ∈ s.indices, i ≠ [] ∧ ',' ∉ i ∧ ']' ∉ i) →
    (∀ s ∈ l', ∀ i ∈ s.indices, i ≠ [] ∧ ',' ∉ i ∧ ']' ∉ i) →
    join ['\n', '\n'] (l.map OrbitalSpace.str) = join ['\n', '\n'] (l'.map OrbitalSpace.str) →
    l.map OrbitalSpace.view = l'.map OrbitalSpace.view
  | [], [], _, _, _ => rfl
  | [], [s], _, _, e => absurd (by simpa [join] using e.symm) (space_str_ne s [])
  | [], s :: t :: l', _, _, e => absurd (by simp [join] at e) (space_str_ne s [])
  | [s], [], _, _, e => absurd (by simpa [join] using e) (space_str_ne s [])
  | s :: t :: l, [], _, _, e => absurd (by simp [join] at e) (space_str_ne s [])
  | [s], [s'], h, h', e => by
    obtain ⟨h1, _⟩ := space_str_split (r := []) (r' := []) (h s (by simp)) (h' s' (by simp)) (by simpa [join] using e)
    simp [h1]
  | [s], s' :: t' :: l', h, h', e => by
    have := (space_str_split (r := []) (h s (by simp)) (h' s' (by simp)) (by simpa [join] using e)).2
    simp at this
  | s :: t :: l, [s'], h, h', e => by
    have := (space_str_split (r' := []) (h s (by simp)) (h' s' (by simp)) (by simpa [join] using e)).2
    simp at this
  | s :: t :: l, s' :: t' :: l', h, h', e => by
    simp only [List.map_cons, join, List.append_assoc] at e
    obtain ⟨h1, h2⟩ := space_str_split (h s (by simp)) (h' s' (by simp)) e
    have h3 := registry_str_inj (l := t :: l) (l' := t' :: l') (fun u hu => h u (List.mem_cons_of_mem _ hu))
      (fun u hu => h' u (List.mem_cons_of_mem _ hu)) (List.append_cancel_left h2)
    rw [List.map_cons, h1, h3]; rfl

/-- C79 (partial): if no index name is empty or contains a comma or a closing bracket, the printed registry
determines the spaces, their order, their labels, types and index names.  The statement without the hypothesis is
false: `C79_str_ambiguous`. -/
theorem C79_str_determines_partial (o o' : OSI) (h : o.PlainNames) (h' : o'.PlainNames) (e : o.str = o'.str) :
    o.spaces.map OrbitalSpace.view = o'.spaces.map OrbitalSpace.view :=
  registry_str_inj h h' e

/-- C79: an index name with a comma, and an empty index name, cannot be told apart from other index names -/
theorem C79_str_ambiguous :
    (runReg OSI.empty [.add 'o' .fermion .occupied [['i', ',', 'j']] []]).str =
      (runReg OSI.empty [.add 'o' .fermion .occupied [['i'], ['j']] []]).str ∧
    (runReg OSI.empty [.add 'o' .fermion .occupied [[]] []]).str =
      (runReg OSI.empty [.add 'o' .fermion .occupied [] []]).str := by
  constructor <;> rfl

example : (runReg OSI.empty ccHistory).PlainNames ∧
    (runReg OSI.empty ccHistory).str = ("space label: o\nfield type: fermion\nspace type: occupied\nindices: [i,j]\n\n" ++
      "space label: v\nfield type: fermion\nspace type: unoccupied\nindices: [a,b]").toList := by
  constructor
  · unfold OSI.PlainNames; decide
  · decide +kernel

/-! ## replaying -/

theorem addIndices_ok {pos : Int} {is : List Str} {m : List (Str × Int)} (h1 : is.Nodup) (h2 : ∀ i ∈ is, mapGet m i = none) :
    (addIndices pos is m).2 = .ok () := by
  induction is generalizing m with
  | nil => rfl
  | cons i is ih =>
    rw [List.nodup_cons] at h1
    unfold addIndices
    rw [h2 i (by simp)]
    refine ih h1.2 (fun j hj => ?_)
    rw [mapGet_cons, if_neg (by rintro rfl; exact h1.1 hj)]
    exact h2 j (by simp [hj])

theorem replay_ok (names : OrbitalSpace → String × String)
    (hname : ∀ s, namesField (names s).1 s.fieldType ∧ namesSpace (names s).2 s.spaceType)
    (l : List OrbitalSpace) (o : OSI) (hE : RegExact o) (hI : RegInv o)
    (h1 : (o.spaces.map (·.label) ++ l.map (·.label)).Nodup)
    (h2 : (o.spaces.flatMap (·.indices) ++ l.flatMap (·.indices)).Nodup) :
    ∃ o', PyRuns o (l.map (fun s => s.asCall (names s).1 (names s).2)) o' ∧
      o'.spaces.map OrbitalSpace.view = o.spaces.map OrbitalSpace.view ++ l.map OrbitalSpace.view ∧ RegInv o' := by
  induction l generalizing o with
  | nil => exact ⟨o, rfl, by simp, hI⟩
  | cons s l ih =>
    have hcall : PyAdd.call o (s.asCall (names s).1 (names s).2) = (RegOp.add s.label s.fieldType s.spaceType s.indices []).step o :=
      (C79_add_space_by_name o s.label (names s).1 (names s).2 s.indices []).1 _ _ (hname s).1 (hname s).2
    have hlab : mapGet o.labelPos s.label = none := by
      cases hm : mapGet o.labelPos s.label with
      | none => rfl
      | some i =>
        obtain ⟨n, t, ht, e, _⟩ := hE.pos' _ _ hm
        have := List.nodup_append.1 h1
        exact absurd e (this.2.2 _ (List.mem_map.2 ⟨t, List.mem_of_getElem? ht, rfl⟩) _ (by simp))
    have hidx : ∀ i ∈ s.indices, mapGet o.idxPos i = none := by
      intro i hi
      cases hm : mapGet o.idxPos i with
      | none => rfl
      | some j =>
        obtain ⟨n, t, ht, e⟩ := hE.idx' _ _ hm
        have := List.nodup_append.1 h2
        exact absurd rfl (this.2.2 i (List.mem_flatMap.2 ⟨t, List.mem_of_getElem? ht, e⟩) i (by simp [hi]))
    have hnd : s.indices.Nodup := by
      have := (List.nodup_append.1 h2).2.1
      rw [List.flatMap_cons] at this
      exact (List.nodup_append.1 this).1
    have hok := addIndices_ok (pos := o.numSpaces) hnd hidx
    have hstep : (RegOp.add s.label s.fieldType s.spaceType s.indices []).step o =
        (⟨o.spaces ++ [⟨s.label, s.fieldType, s.spaceType, s.indices, []⟩], (s.label, o.numSpaces) :: o.labelPos,
          (addIndices o.numSpaces s.indices o.idxPos).1⟩, .ok ()) := by
      simp only [RegOp.step, addSpace, hlab]
      cases ha : addIndices o.numSpaces s.indices o.idxPos with
      | mk m r =>
        rw [ha] at hok
        simp only at hok
        subst hok
        rfl
    have hE' := regExact_step o _ hE (by rw [hstep])
    have hI' := regInv_step o (RegOp.add s.label s.fieldType s.spaceType s.indices []) hI
    rw [hstep] at hE' hI'
    obtain ⟨o', r1, r2, r3⟩ := ih _ hE' hI' (by simpa using h1) (by simpa using h2)
    refine ⟨o', ⟨by rw [hcall, hstep], by rw [hcall, hstep]; exact r1⟩, ?_, r3⟩
    rw [r2]
    simp [OrbitalSpace.view]

/-- C79: whatever happened to a registry, registering its spaces again in an empty registry, with the labels, names of
types and index names it shows, succeeds and gives a registry that shows the same and finds the same labels -/
theorem C79_replay (ops : List RegOp) (names : OrbitalSpace → String × String)
    (hname : ∀ s, namesField (names s).1 s.fieldType ∧ namesSpace (names s).2 s.spaceType) :
    let o := runReg OSI.empty ops
    ∃ o', PyRuns OSI.empty (o.spaces.map (fun s => s.asCall (names s).1 (names s).2)) o' ∧
      o'.spaces.map OrbitalSpace.view = o.spaces.map OrbitalSpace.view ∧ o'.str = o.str ∧ o'.toMap = o.toMap ∧
      ∀ s ∈ o.spaces, o'.labelToSpace s.label = o.labelToSpace s.label := by
  intro o
  have hI : RegInv o := regInv_run ops _ regInv_empty
  obtain ⟨o', h1, h2, h3⟩ := replay_ok names hname o.spaces OSI.empty regExact_empty regInv_empty (by simpa [OSI.empty] using hI.labels)
    (by simpa [OSI.empty] using hI.names)
  have h2' : o'.spaces.map OrbitalSpace.view = o.spaces.map OrbitalSpace.view := by simpa [OSI.empty] using h2
  refine ⟨o', h1, h2', ?_, ?_, ?_⟩
  · have : ∀ l : List OrbitalSpace, l.map OrbitalSpace.str =
        (l.map OrbitalSpace.view).map (fun v => OrbitalSpace.str ⟨v.1, v.2.1, v.2.2.1, v.2.2.2, []⟩) := by
      intro l; rw [List.map_map]; rfl
    unfold OSI.str
    rw [this, this, h2']
  · have : ∀ l : List OrbitalSpace, l.foldl (fun d s => SMap.insert [s.label] s.indices d) ([] : SMap Str (List Str)) =
        (l.map OrbitalSpace.view).foldl (fun d v => SMap.insert [v.1] v.2.2.2 d) [] := by
      intro l; rw [List.foldl_map]; rfl
    unfold OSI.toMap
    rw [this, this, h2']
  · intro s hs
    obtain ⟨n, hn, rfl⟩ := List.getElem_of_mem hs
    have e := hI.pos n _ (List.getElem?_eq_getElem hn)
    have hlen : o'.spaces.length = o.spaces.length := by simpa using congrArg List.length h2'
    have hn' : n < o'.spaces.length := by omega
    have e' := h3.pos n _ (List.getElem?_eq_getElem hn')
    have hl : o'.spaces[n].label = o.spaces[n].label := by
      have := congrArg (fun l => l[n]?) h2'
      simp only [List.getElem?_map, List.getElem?_eq_getElem hn, List.getElem?_eq_getElem hn', Option.map_some, Option.some.injEq, OrbitalSpace.view, Prod.mk.injEq] at this
      exact this.1
    rw [hl] at e'
    simp only [labelToSpace, e, e']

example : ∀ s : OrbitalSpace, ∃ n : String × String, namesField n.1 s.fieldType ∧ namesSpace n.2 s.spaceType := by
  intro s
  refine ⟨(match s.fieldType with | .fermion => "fermion" | .boson => "boson",
    match s.spaceType with | .occupied => "occupied" | .unoccupied => "unoccupied" | .general => "general"), ?_, ?_⟩
  · cases s.fieldType <;> simp [namesField]
  · cases s.spaceType <;> simp [namesSpace]

end Wicked
