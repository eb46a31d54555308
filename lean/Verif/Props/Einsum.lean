import Verif.Spec.Equation
import Verif.Spec.Fock
import Verif.Props.Manybody
/-! # C56: letters of `compile("einsum")` -/
namespace Wicked
open CppLt CppEq

/-- invariant of the letter allocation -/
structure LInv (st : Letters) : Prop where
  srt : SMap.Srt st.map
  nd : st.unused.Nodup
  sub : ∀ c ∈ st.unused, c ∈ allLetters
  used : ∀ s c, st.map.find s = some c → c ∈ allLetters ∧ c ∉ st.unused
  inj : ∀ s s' c, st.map.find s = some c → st.map.find s' = some c → s = s'
  len : st.unused.length + st.map.length = 52

/-- the names that have a letter -/
def Letters.keys (st : Letters) : Finset Str := (st.map.map Prod.fst).toFinset

theorem linv_init : LInv ⟨[], allLetters⟩ where
  srt := List.Pairwise.nil
  nd := by decide
  sub := fun c hc => hc
  used := fun s c h => by simp [SMap.find] at h
  inj := fun s s' c h => by simp [SMap.find] at h
  len := by decide

theorem srt_nodup {ν : Type} {m : SMap Str ν} (h : SMap.Srt m) : (m.map Prod.fst).Nodup := by
  rw [List.Nodup, List.pairwise_map]
  apply h.imp
  intro a b hab heq
  rw [heq] at hab
  exact absurd hab (by simp [StrictWeak.irrefl])

theorem LInv.card {st : Letters} (h : LInv st) : st.keys.card = st.map.length := by
  unfold Letters.keys
  rw [List.toFinset_card_of_nodup (srt_nodup h.srt), List.length_map]

theorem mem_keys {st : Letters} (h : SMap.Srt st.map) {s : Str} : s ∈ st.keys ↔ ∃ c, st.map.find s = some c := by
  unfold Letters.keys
  rw [List.mem_toFinset, List.mem_map]
  constructor
  · rintro ⟨p, hp, rfl⟩; exact ⟨_, SMap.find_of_mem h hp⟩
  · rintro ⟨c, hc⟩
    obtain ⟨p, hp, he, _⟩ := SMap.find_some_mem hc
    exact ⟨p, hp, eqv_eq_iff.1 he⟩

theorem find_insert_str {ν : Type} {m : SMap Str ν} (h : SMap.Srt m) (k k' : Str) (v : ν) :
    (m.insert k v).find k' = if k = k' then some v else m.find k' := by
  rw [SMap.find_insert h]
  by_cases hk : k = k'
  · rw [if_pos (eqv_eq_iff.2 hk), if_pos hk]
  · rw [if_neg (fun h => hk (eqv_eq_iff.1 h)), if_neg hk]

/-- `st'` keeps the letters of `st` -/
def Letters.le (st st' : Letters) : Prop := ∀ s c, st.map.find s = some c → st'.map.find s = some c

theorem pick_spec (s : Str) (unused : List Char) :
    (∃ c ∈ unused, pickLetter s unused = .ok c) ∨ (unused = [] ∧ pickLetter s unused = .error .ub) := by
  have hl : (∃ c ∈ unused, (match unused.getLast? with | some y => pure y | none => throw .ub : Res Char) = .ok c) ∨
      (unused = [] ∧ (match unused.getLast? with | some y => pure y | none => throw .ub : Res Char) = .error .ub) := by
    cases h : unused.getLast? with
    | none => right; exact ⟨List.getLast?_eq_none_iff.1 h, rfl⟩
    | some y => left; exact ⟨y, List.mem_of_getLast? h, rfl⟩
  unfold pickLetter
  split
  · rename_i x
    by_cases hx : x ∈ unused
    · left; exact ⟨x, hx, by rw [if_pos hx]; rfl⟩
    · rw [if_neg hx]; exact hl
  · exact hl

theorem length_insert_new {ν : Type} (k : Str) (v : ν) (m : SMap Str ν) (h : m.find k = none) : (m.insert k v).length = m.length + 1 := by
  induction m with
  | nil => rfl
  | cons p m ih =>
    obtain ⟨k', v'⟩ := p
    simp only [SMap.find] at h
    simp only [SMap.insert]
    split at h
    · next h1 => rw [if_pos h1, List.length_cons, ih h, List.length_cons]
    · next h1 =>
      rw [if_neg h1]
      split at h
      · next h2 => rw [if_pos h2]; rfl
      · cases h

theorem uniqueIndex_spec {st : Letters} (h : LInv st) (s : Str) :
    (∃ c st', uniqueIndex s st = .ok (c, st') ∧ LInv st' ∧ st.le st' ∧ st'.map.find s = some c ∧ st'.keys = insert s st.keys) ∨
    (uniqueIndex s st = .error .ub ∧ 52 < (insert s st.keys).card) := by
  unfold uniqueIndex
  cases hf : st.map.find s with
  | some c =>
    left
    refine ⟨c, st, rfl, h, fun _ _ h => h, hf, ?_⟩
    rw [Finset.insert_eq_of_mem ((mem_keys h.srt).2 ⟨c, hf⟩)]
  | none =>
    have hns : s ∉ st.keys := fun hm => by
      obtain ⟨c, hc⟩ := (mem_keys h.srt).1 hm
      rw [hf] at hc; cases hc
    rcases pick_spec s st.unused with ⟨c, hc, hp⟩ | ⟨hu, hp⟩
    · left
      simp only [hp, bind, Except.bind, pure, Except.pure]
      refine ⟨c, _, rfl, ⟨SMap.srt_insert h.srt, h.nd.filter _, fun d hd => h.sub d (List.mem_filter.1 hd).1, ?_, ?_, ?_⟩, ?_, ?_, ?_⟩
      · intro s' d hd
        dsimp only at hd
        rw [find_insert_str h.srt] at hd
        split at hd
        · injection hd with hd; subst hd
          exact ⟨h.sub c hc, by simp⟩
        · exact ⟨(h.used s' d hd).1, fun hm => (h.used s' d hd).2 (List.mem_filter.1 hm).1⟩
      · intro s1 s2 d h1 h2
        dsimp only at h1 h2
        rw [find_insert_str h.srt] at h1 h2
        split at h1 <;> split at h2
        · next e1 e2 => rw [← e1, ← e2]
        · injection h1 with h1; subst h1; exact absurd hc (h.used _ _ h2).2
        · injection h2 with h2; subst h2; exact absurd hc (h.used _ _ h1).2
        · exact h.inj _ _ _ h1 h2
      · dsimp only
        rw [length_insert_new _ _ _ hf, ← h.len]
        have : (st.unused.filter (fun y => y ≠ c)).length = st.unused.length - 1 := by
          have := List.Nodup.erase_eq_filter h.nd c
          have e : (st.unused.filter (fun y => y ≠ c)) = st.unused.erase c := by
            rw [this]; apply List.filter_congr; intro x _; by_cases hx : x = c <;> simp [hx]
          rw [e, List.length_erase_of_mem hc]
        rw [this]
        have := List.length_pos_of_mem hc
        omega
      · intro s' d hd
        dsimp only
        rw [find_insert_str h.srt]
        split
        · next e => subst e; rw [hf] at hd; cases hd
        · exact hd
      · dsimp only; rw [find_insert_str h.srt, if_pos rfl]
      · ext s'
        rw [mem_keys (SMap.srt_insert h.srt), Finset.mem_insert, mem_keys h.srt]
        dsimp only
        rw [find_insert_str h.srt]
        by_cases e : s = s'
        · simp [e]
        · rw [if_neg e]; simp [show ¬ s' = s from fun h => e h.symm]
    · right
      simp only [hp, bind, Except.bind]
      refine ⟨trivial, ?_⟩
      rw [Finset.card_insert_of_notMem hns, h.card]
      have := h.len
      rw [hu] at this
      simp at this
      omega

theorem Letters.le_refl (st : Letters) : st.le st := fun _ _ h => h
theorem Letters.le_trans {a b c : Letters} (h : a.le b) (h' : b.le c) : a.le c := fun s x hx => h' s x (h s x hx)

/-- the name of an index -/
def nm (o : OSI) (i : Index) : Str := (i.latex o).toOption.getD []
/-- the letter that a state gives to an index -/
def Letters.get (st : Letters) (o : OSI) (i : Index) : Char := (st.map.find (nm o i)).getD 'a'

theorem get_le {st st' : Letters} (hs : SMap.Srt st.map) (h : st.le st') {o : OSI} {i : Index} (hi : nm o i ∈ st.keys) : st'.get o i = st.get o i := by
  obtain ⟨c, hc⟩ := (mem_keys hs).1 hi
  unfold Letters.get
  rw [hc, h _ _ hc]

theorem uniqueIndices_spec {o : OSI} (is : List Index) (hv : ∀ i ∈ is, i.latex o = .ok (nm o i)) : ∀ {st : Letters}, LInv st →
    (∃ st', uniqueIndices o is st = .ok (is.map (st'.get o), st') ∧ LInv st' ∧ st.le st' ∧ st'.keys = st.keys ∪ (is.map (nm o)).toFinset) ∨
    (uniqueIndices o is st = .error .ub ∧ 52 < (st.keys ∪ (is.map (nm o)).toFinset).card) := by
  induction is with
  | nil => intro st h; left; exact ⟨st, rfl, h, st.le_refl, by simp⟩
  | cons i is ih =>
    intro st h
    have hu : st.keys ∪ ((i :: is).map (nm o)).toFinset = insert (nm o i) st.keys ∪ (is.map (nm o)).toFinset := by
      ext x; simp
    simp only [uniqueIndices, hv i (by simp), bind, Except.bind]
    rcases uniqueIndex_spec h (nm o i) with ⟨c, st1, h1, i1, l1, f1, k1⟩ | ⟨h1, h2⟩
    · simp only [h1]
      rcases ih (fun j hj => hv j (by simp [hj])) i1 with ⟨st2, h2, i2, l2, k2⟩ | ⟨h2, h3⟩
      · left
        refine ⟨st2, ?_, i2, Letters.le_trans l1 l2, by rw [k2, k1, hu]⟩
        simp only [h2, pure, Except.pure]
        rw [List.map_cons]
        congr 3
        unfold Letters.get
        rw [l2 _ _ f1]; rfl
      · right
        rw [h2, hu, ← k1]
        exact ⟨rfl, h3⟩
    · right
      rw [h1, hu]
      exact ⟨rfl, lt_of_lt_of_le h2 (Finset.card_le_card Finset.subset_union_left)⟩

theorem tensorsIndices_spec {o : OSI} (ts : List Tensor) (hv : ∀ t ∈ ts, ∀ i ∈ t.upper ++ t.lower, i.latex o = .ok (nm o i)) : ∀ {st : Letters}, LInv st →
    (∃ st', tensorsIndices o ts st = .ok (ts.map (fun t => (t.upper ++ t.lower).map (st'.get o)), st') ∧ LInv st' ∧ st.le st' ∧
      st'.keys = st.keys ∪ ((ts.flatMap (fun t => t.upper ++ t.lower)).map (nm o)).toFinset) ∨
    (tensorsIndices o ts st = .error .ub ∧ 52 < (st.keys ∪ ((ts.flatMap (fun t => t.upper ++ t.lower)).map (nm o)).toFinset).card) := by
  induction ts with
  | nil => intro st h; left; exact ⟨st, rfl, h, st.le_refl, by simp⟩
  | cons t ts ih =>
    intro st h
    have hu : st.keys ∪ (((t :: ts).flatMap (fun t => t.upper ++ t.lower)).map (nm o)).toFinset =
        (st.keys ∪ ((t.upper ++ t.lower).map (nm o)).toFinset) ∪ ((ts.flatMap (fun t => t.upper ++ t.lower)).map (nm o)).toFinset := by
      rw [List.flatMap_cons, List.map_append, List.toFinset_append, Finset.union_assoc]
    simp only [tensorsIndices, uniqueTensorIndices, bind, Except.bind]
    rcases uniqueIndices_spec (t.upper ++ t.lower) (hv t (by simp)) h with ⟨st1, h1, i1, l1, k1⟩ | ⟨h1, h2⟩
    · simp only [h1]
      rcases ih (fun t' ht' => hv t' (by simp [ht'])) i1 with ⟨st2, h2, i2, l2, k2⟩ | ⟨h2, h3⟩
      · left
        refine ⟨st2, ?_, i2, Letters.le_trans l1 l2, by rw [k2, k1, hu]⟩
        simp only [h2, pure, Except.pure]
        rw [List.map_cons]
        congr 3
        apply List.map_congr_left
        intro i hi
        rw [get_le i1.srt l2]
        rw [k1]
        exact Finset.mem_union_right _ (List.mem_toFinset.2 (List.mem_map_of_mem hi))
      · right
        rw [h2, hu, ← k1]
        exact ⟨rfl, h3⟩
    · right
      rw [h1, hu]
      exact ⟨rfl, lt_of_lt_of_le h2 (Finset.card_le_card Finset.subset_union_left)⟩

theorem mapM_ok {α β : Type} (f : α → Res β) (g : α → β) (l : List α) (h : ∀ a ∈ l, f a = .ok (g a)) :
    l.mapM (m := Except Fault) f = .ok (l.map g) := by
  induction l with
  | nil => rfl
  | cons a l ih =>
    rw [List.mapM_cons, h a (by simp), ih (fun b hb => h b (by simp [hb]))]
    rfl

theorem label_registered {o : OSI} {i : Index} (h : i.Registered o) :
    o.label i.space = .ok (((o.spaces[i.space.toNat]?).map (·.label)).getD ' ') := by
  obtain ⟨h1, h2⟩ := h
  have hlt : i.space.toNat < o.spaces.length := h2
  have := label_nat (List.getElem?_eq_getElem hlt)
  rw [show ((i.space.toNat : Nat) : Int) = i.space by omega] at this
  rw [List.getElem?_eq_getElem hlt, this]
  rfl

theorem spaceLabels_ok {o : OSI} {t : Tensor} (h : ∀ i ∈ t.upper ++ t.lower, i.Registered o) : spaceLabels o t = .ok (spaceText o t) :=
  mapM_ok _ _ _ (fun i hi => label_registered (h i hi))

theorem latex_registered {o : OSI} {i : Index} (h : i.Registered o) : i.latex o = .ok (nm o i) := by
  obtain ⟨h1, h2⟩ := h
  have hlt : i.space.toNat < o.spaces.length := h2
  have hx : o.space i.space = .ok o.spaces[i.space.toNat] := by
    unfold OSI.space
    rw [if_pos h1, List.getElem?_eq_getElem hlt]
  unfold nm Index.latex OSI.indexLabel OSI.indices OSI.label
  rw [hx]
  simp only [bind, Except.bind, pure, Except.pure]
  split
  · cases o.spaces[i.space.toNat].indices[i.pos.toNat]? <;> rfl
  · rfl

theorem compile_names {o : OSI} (fmt : Rational → Str) {q : Equation} {t : Tensor} {ts : List Tensor} (hl : q.lhs.tensors = t :: ts)
    (hv : ∀ i ∈ einsumIndices t q, i.Registered o) :
    (∃ st, q.compileEinsum o fmt = .ok (einsumText o fmt (st.get o) t q) ∧ LInv st ∧ st.keys = ((einsumIndices t q).map (nm o)).toFinset) ∨
    (q.compileEinsum o fmt = .error .ub ∧ 52 < ((einsumIndices t q).map (nm o)).toFinset.card) := by
  have hvt : ∀ i ∈ t.upper ++ t.lower, i.Registered o := fun i hi => hv i (List.mem_append_right _ hi)
  have hvr : ∀ x ∈ q.rhs.tensors, ∀ i ∈ x.upper ++ x.lower, i.Registered o := fun x hx i hi =>
    hv i (List.mem_append_left _ (List.mem_flatMap.2 ⟨x, hx, hi⟩))
  have hk0 : Letters.keys ⟨[], allLetters⟩ = ∅ := rfl
  have hu : ((einsumIndices t q).map (nm o)).toFinset = ((q.rhs.tensors.flatMap (fun t => t.upper ++ t.lower)).map (nm o)).toFinset ∪ ((t.upper ++ t.lower).map (nm o)).toFinset := by
    unfold einsumIndices
    rw [List.map_append, List.toFinset_append]
  unfold Equation.compileEinsum
  rw [hl]
  simp only [spaceLabels_ok hvt, bind, Except.bind]
  rcases tensorsIndices_spec q.rhs.tensors (fun x hx i hi => latex_registered (hvr x hx i hi)) linv_init with ⟨st1, h1, i1, l1, k1⟩ | ⟨h1, h2⟩
  · rw [hk0, Finset.empty_union] at k1
    simp only [h1, uniqueTensorIndices]
    rcases uniqueIndices_spec (t.upper ++ t.lower) (fun i hi => latex_registered (hvt i hi)) i1 with ⟨st2, h2, i2, l2, k2⟩ | ⟨h2, h3⟩
    · left
      refine ⟨st2, ?_, i2, by rw [k2, k1, hu]⟩
      simp only [h2]
      rw [mapM_ok (einsumArg o) (fun x => x.label ++ "[\"".toList ++ spaceText o x ++ "\"]".toList) _ (fun x hx => by
        unfold einsumArg; rw [spaceLabels_ok (hvr x hx)]; rfl)]
      simp only [pure, Except.pure]
      unfold einsumText
      rw [List.map_congr_left (f := fun t : Tensor => (t.upper ++ t.lower).map (st1.get o)) (g := fun x : Tensor => (x.upper ++ x.lower).map (st2.get o))]
      intro x hx
      apply List.map_congr_left
      intro i hi
      rw [get_le i1.srt l2]
      rw [k1]
      exact List.mem_toFinset.2 (List.mem_map_of_mem (List.mem_flatMap.2 ⟨x, hx, hi⟩))
    · right
      rw [h2, hu, ← k1]
      exact ⟨rfl, h3⟩
  · right
    rw [hk0, Finset.empty_union] at h2
    rw [h1, hu]
    exact ⟨rfl, lt_of_lt_of_le h2 (Finset.card_le_card Finset.subset_union_left)⟩

theorem registered_iff {o : OSI} {i : Index} (h : i.Registered o) : 0 ≤ i.space ∧ i.space < o.numSpaces := by
  obtain ⟨h1, h2⟩ := h
  unfold OSI.numSpaces
  omega

theorem nm_inj (ops : List RegOp)
    (hgen : ∀ s ∈ (runReg OSI.empty ops).spaces, ∀ name ∈ s.indices, ∀ (c : Char) (n : Int), name ≠ c :: '_' :: '{' :: (intStr n ++ ['}']))
    {i j : Index} (hi : i.Registered (runReg OSI.empty ops)) (hj : j.Registered (runReg OSI.empty ops))
    (h : nm (runReg OSI.empty ops) i = nm (runReg OSI.empty ops) j) : i = j := by
  obtain ⟨a, b, ha, hb, hab⟩ := C13_index_label_injective ops i j hgen (registered_iff hi) (registered_iff hj)
  apply hab
  rw [latex_registered hi] at ha
  rw [latex_registered hj] at hb
  injection ha with ha
  injection hb with hb
  rw [← ha, ← hb, h]

/-- **C56**: after any history of registry calls in which no index name imitates the generated names
`c_{n}` (the condition of C13), for every equation over the registered spaces whose left-hand side has a tensor:
if it has at most 52 different indices, `compile("einsum")` returns the text `einsumText` for an injective
assignment of ASCII letters to its indices; with more than 52 it reads the last element of an empty vector. -/
theorem C56_einsum_letters (ops : List RegOp) (fmt : Rational → Str) (q : Equation) (t : Tensor) (ts : List Tensor) :
    let o := runReg OSI.empty ops
    (∀ s ∈ o.spaces, ∀ name ∈ s.indices, ∀ (c : Char) (n : Int), name ≠ c :: '_' :: '{' :: (intStr n ++ ['}'])) →
    q.lhs.tensors = t :: ts → (∀ i ∈ einsumIndices t q, i.Registered o) →
    ((einsumIndices t q).toFinset.card ≤ 52 →
      ∃ letter : Index → Char, q.compileEinsum o fmt = .ok (einsumText o fmt letter t q) ∧
        (∀ i ∈ einsumIndices t q, isAlpha (letter i) = true) ∧
        (∀ i ∈ einsumIndices t q, ∀ j ∈ einsumIndices t q, letter i = letter j → i = j)) ∧
    (52 < (einsumIndices t q).toFinset.card → q.compileEinsum o fmt = .error .ub) := by
  intro o hgen hl hv
  have hcard : ((einsumIndices t q).map (nm o)).toFinset.card = (einsumIndices t q).toFinset.card := by
    rw [show ((einsumIndices t q).map (nm o)).toFinset = (einsumIndices t q).toFinset.image (nm o) by ext x; simp]
    apply Finset.card_image_of_injOn
    intro i hi j hj h
    exact nm_inj ops hgen (hv i (List.mem_toFinset.1 hi)) (hv j (List.mem_toFinset.1 hj)) h
  rcases compile_names fmt hl hv with ⟨st, h1, h2, h3⟩ | ⟨h1, h2⟩
  · constructor
    · intro _
      refine ⟨st.get o, h1, ?_, ?_⟩
      · intro i hi
        obtain ⟨c, hc⟩ := (mem_keys h2.srt).1 (show nm o i ∈ st.keys by rw [h3]; exact List.mem_toFinset.2 (List.mem_map_of_mem hi))
        unfold Letters.get
        rw [hc]
        have : ∀ c ∈ allLetters, isAlpha c = true := by decide
        exact this c (h2.used _ _ hc).1
      · intro i hi j hj h
        obtain ⟨c, hc⟩ := (mem_keys h2.srt).1 (show nm o i ∈ st.keys by rw [h3]; exact List.mem_toFinset.2 (List.mem_map_of_mem hi))
        obtain ⟨d, hd⟩ := (mem_keys h2.srt).1 (show nm o j ∈ st.keys by rw [h3]; exact List.mem_toFinset.2 (List.mem_map_of_mem hj))
        unfold Letters.get at h
        rw [hc, hd] at h
        simp only [Option.getD_some] at h
        subst h
        exact nm_inj ops hgen (hv i hi) (hv j hj) (h2.inj _ _ _ hc hd)
    · intro h52
      have := h2.card
      have := h2.len
      rw [h3, hcard] at *
      omega
  · constructor
    · intro h52
      rw [hcard] at h2
      omega
    · intro _; exact h1

-- r^{a,b}_{i,j} += t^{a,c}_{i,k} v^{k,b}_{c,j} : `k` and `c` are not registered names, hence printed `o_{2}`, `v_{2}`
def exEq : Equation :=
  ⟨⟨false, [], [⟨['r'], [⟨0, 0⟩, ⟨0, 1⟩], [⟨1, 0⟩, ⟨1, 1⟩], .antisymmetric, false⟩]⟩,
   ⟨false, [], [⟨['t'], [⟨0, 0⟩, ⟨0, 2⟩], [⟨1, 0⟩, ⟨1, 2⟩], .antisymmetric, false⟩, ⟨['v'], [⟨1, 2⟩, ⟨0, 1⟩], [⟨0, 2⟩, ⟨1, 1⟩], .antisymmetric, false⟩]⟩, ⟨1, 4⟩⟩
example : (exEq.compileEinsum (runReg OSI.empty ccHistory) (fun _ => "0.25".toList)).toOption.map String.ofList =
    some "rvvoo += 0.25 * np.einsum(\"abic,cdbj->adij\",t[\"vvoo\"],v[\"ovvo\"],optimize=\"optimal\")" := by decide +kernel
example : (einsumIndices ⟨['r'], [⟨0, 0⟩, ⟨0, 1⟩], [⟨1, 0⟩, ⟨1, 1⟩], .antisymmetric, false⟩ exEq).toFinset.card = 6 := by decide +kernel
end Wicked
