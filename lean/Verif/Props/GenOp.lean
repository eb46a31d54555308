import Verif.Spec.GenOp
import Verif.Props.OpMake
import Mathlib.Data.List.Sort
import Mathlib.Data.List.Count
/-! # `gen_op`: C38 -/
namespace Wicked
open CppLt Rational OpExpr GenOp

section tuples
variable {r : Char → Char → Prop} [DecidableRel r]

theorem length_tuples {l : Str} {k : Nat} {t : Str} (h : t ∈ tuples l k) : t.length = k := by
  induction k generalizing t with
  | zero => simp [tuples] at h; rw [h]; rfl
  | succ k ih =>
    simp only [tuples, List.mem_flatMap, List.mem_map] at h
    obtain ⟨a, _, u, hu, rfl⟩ := h
    simp [ih hu]

theorem mem_tuples {l : Str} {k : Nat} {t : Str} : t ∈ tuples l k ↔ t.length = k ∧ ∀ c ∈ t, c ∈ l := by
  induction k generalizing t with
  | zero => simp only [tuples, List.mem_singleton, List.length_eq_zero_iff]; constructor
            · rintro rfl; simp
            · exact fun h => h.1
  | succ k ih =>
    simp only [tuples, List.mem_flatMap, List.mem_map]
    constructor
    · rintro ⟨a, ha, u, hu, rfl⟩
      obtain ⟨h1, h2⟩ := ih.1 hu
      refine ⟨by simp [h1], ?_⟩
      intro c hc
      rcases List.mem_cons.1 hc with rfl | hc
      · exact ha
      · exact h2 c hc
    · rintro ⟨h1, h2⟩
      rcases t with _ | ⟨a, u⟩
      · simp at h1
      · exact ⟨a, h2 a (by simp), u, ih.2 ⟨by simpa using h1, fun c hc => h2 c (by simp [hc])⟩, rfl⟩

theorem nodup_tuples {l : Str} (h : l.Nodup) (k : Nat) : (tuples l k).Nodup := by
  induction k with
  | zero => simp [tuples]
  | succ k ih =>
    simp only [tuples]
    rw [List.nodup_flatMap]
    refine ⟨fun a _ => ih.map (fun x y hxy => by simpa using hxy), ?_⟩
    apply h.imp
    intro a b hab t ht1 ht2
    simp only [List.mem_map] at ht1 ht2
    obtain ⟨u, _, rfl⟩ := ht1
    obtain ⟨v, _, h⟩ := ht2
    simp only [List.cons.injEq] at h
    exact hab h.1.symm

end tuples

/-- what the proofs need about a registry -/
structure GoodReg (o : OSI) : Prop where
  iff : ∀ l i, o.labelToSpace l = .ok i ↔ (0 ≤ i ∧ i < o.numSpaces ∧ o.label i = .ok l)
  nodup : (o.spaces.map (·.label)).Nodup

theorem goodReg (ops : List RegOp) (hok : allOk OSI.empty ops) : GoodReg (runReg OSI.empty ops) := by
  obtain ⟨_, _, h3, _, h5, _⟩ := C10_registry_consistent ops hok
  exact ⟨h5, h3⟩

/-- number of a label -/
def spOf (o : OSI) (c : Char) : Nat := match o.labelToSpace c with | .ok i => i.toNat | .error _ => 0

theorem label_ok {o : OSI} {n : Nat} {c : Char} : o.label (n : Int) = .ok c ↔ ∃ s, o.spaces[n]? = some s ∧ s.label = c := by
  unfold OSI.label OSI.space
  rw [if_pos (by omega)]
  simp only [Int.toNat_natCast]
  cases o.spaces[n]? with
  | none => simp [bind, Except.bind]
  | some s => simp [bind, Except.bind, pure, Except.pure]

theorem spOf_spec {o : OSI} (h : GoodReg o) {c : Char} (hc : c ∈ o.spaces.map (·.label)) :
    o.labelToSpace c = .ok (spOf o c : Int) ∧ spOf o c < o.spaces.length ∧
      (∃ s, o.spaces[spOf o c]? = some s ∧ s.label = c) := by
  obtain ⟨s, hs, rfl⟩ := List.mem_map.1 hc
  obtain ⟨n, hn, rfl⟩ := List.getElem_of_mem hs
  have h1 : o.labelToSpace (o.spaces[n].label) = .ok (n : Int) :=
    (h.iff _ _).2 ⟨by omega, by unfold OSI.numSpaces; omega, label_ok.2 ⟨_, List.getElem?_eq_getElem hn, rfl⟩⟩
  have h2 : spOf o o.spaces[n].label = n := by unfold spOf; rw [h1]; simp
  rw [h2]
  exact ⟨h1, hn, _, List.getElem?_eq_getElem hn, rfl⟩

theorem spOf_inj {o : OSI} (h : GoodReg o) {c d : Char} (hc : c ∈ o.spaces.map (·.label)) (hd : d ∈ o.spaces.map (·.label))
    (he : spOf o c = spOf o d) : c = d := by
  obtain ⟨_, _, s, h1, h2⟩ := spOf_spec h hc
  obtain ⟨_, _, t, h3, h4⟩ := spOf_spec h hd
  rw [he, h3] at h1
  injection h1 with h1
  rw [← h2, ← h4, h1]

theorem lookup_spec {o : OSI} (h : GoodReg o) {c : Char} (hc : c ∈ o.spaces.map (·.label)) : lookup o c = .ok (spOf o c) := by
  obtain ⟨_, h2, s, h3, h4⟩ := spOf_spec h hc
  unfold lookup
  have hmem : ∀ n ∈ (List.range o.spaces.length).filter (fun n => (o.spaces[n]?).any (fun s => s.label == c)), n = spOf o c := by
    intro n hn
    obtain ⟨_, hn2⟩ := List.mem_filter.1 hn
    rw [Option.any_eq_true] at hn2
    obtain ⟨t, ht, hl⟩ := hn2
    rw [beq_iff_eq] at hl
    have e1 : o.labelToSpace c = .ok (n : Int) := by
      have hlt := (List.getElem?_eq_some_iff.1 ht).1
      exact (h.iff _ _).2 ⟨by omega, by unfold OSI.numSpaces; omega, label_ok.2 ⟨t, ht, hl⟩⟩
    unfold spOf; rw [e1]; simp
  have hin : spOf o c ∈ (List.range o.spaces.length).filter (fun n => (o.spaces[n]?).any (fun s => s.label == c)) := by
    rw [List.mem_filter, List.mem_range]
    exact ⟨h2, by rw [h3]; simp [h4]⟩
  rcases hl : ((List.range o.spaces.length).filter (fun n => (o.spaces[n]?).any (fun s => s.label == c))).getLast? with _ | n
  · rw [List.getLast?_eq_none_iff] at hl; rw [hl] at hin; cases hin
  · have := hmem n (List.mem_of_getLast? hl)
    rw [hl, this]

theorem sortedUp_spec {o : OSI} (h : GoodReg o) : ∀ (t : Str), (∀ c ∈ t, c ∈ o.spaces.map (·.label)) →
    ∃ b, sortedUp o t = .ok b ∧ (b = true ↔ t.Pairwise (fun a b => spOf o a ≤ spOf o b)) := by
  have htr : IsTrans Char (fun a b => spOf o a ≤ spOf o b) := ⟨fun a b c h1 h2 => Nat.le_trans h1 h2⟩
  intro t
  induction t with
  | nil => intro _; exact ⟨true, rfl, by simp⟩
  | cons a t ih =>
    intro ht
    rcases t with _ | ⟨b, t⟩
    · exact ⟨true, rfl, by simp⟩
    · obtain ⟨x, h1, h2⟩ := ih (fun c hc => ht c (by simp [hc]))
      simp only [sortedUp]
      rw [lookup_spec h (ht a (by simp)), lookup_spec h (ht b (by simp))]
      simp only [bind, Except.bind, pure, Except.pure]
      rw [← List.isChain_iff_pairwise, List.isChain_cons_cons, List.isChain_iff_pairwise, ← h2]
      split
      · rename_i hle; exact ⟨x, h1, by simp [hle]⟩
      · rename_i hle; exact ⟨false, rfl, by simp [hle]⟩

theorem sortedDown_spec {o : OSI} (h : GoodReg o) : ∀ (t : Str), (∀ c ∈ t, c ∈ o.spaces.map (·.label)) →
    ∃ b, sortedDown o t = .ok b ∧ (b = true ↔ t.Pairwise (fun a b => spOf o b ≤ spOf o a)) := by
  have htr : IsTrans Char (fun a b => spOf o b ≤ spOf o a) := ⟨fun a b c h1 h2 => Nat.le_trans h2 h1⟩
  intro t
  induction t with
  | nil => intro _; exact ⟨true, rfl, by simp⟩
  | cons a t ih =>
    intro ht
    rcases t with _ | ⟨b, t⟩
    · exact ⟨true, rfl, by simp⟩
    · obtain ⟨x, h1, h2⟩ := ih (fun c hc => ht c (by simp [hc]))
      simp only [sortedDown]
      rw [lookup_spec h (ht a (by simp)), lookup_spec h (ht b (by simp))]
      simp only [bind, Except.bind, pure, Except.pure]
      rw [← List.isChain_iff_pairwise, List.isChain_cons_cons, List.isChain_iff_pairwise, ← h2]
      split
      · rename_i hle; exact ⟨x, h1, by simp [hle]⟩
      · rename_i hle; exact ⟨false, rfl, by simp [hle]⟩

/-- number of letters of `t` in space `s` -/
def cntSp (o : OSI) (t : Str) (s : Nat) : Int := ((t.filter (fun c => decide (o.labelToSpace c = .ok (s : Int)))).length : Int)

theorem cntSp_perm {o : OSI} {t u : Str} (h : t.Perm u) (s : Nat) : cntSp o t s = cntSp o u s := by
  unfold cntSp; rw [(h.filter _).length_eq]

theorem cntSp_count {o : OSI} (h : GoodReg o) {t : Str} (ht : ∀ c ∈ t, c ∈ o.spaces.map (·.label)) {d : Char}
    (hd : d ∈ o.spaces.map (·.label)) : cntSp o t (spOf o d) = t.count d := by
  unfold cntSp
  rw [List.count_eq_length_filter]
  congr 2
  apply List.filter_congr
  intro c hc
  obtain ⟨h1, _⟩ := spOf_spec h (ht c hc)
  rw [h1]
  simp only [Except.ok.injEq]
  by_cases he : c = d
  · simp [he]
  · have : ¬ spOf o c = spOf o d := fun hh => he (spOf_inj h (ht c hc) hd hh)
    rw [decide_eq_false (by omega), beq_eq_false_iff_ne.2 he]

theorem perm_of_cntSp {o : OSI} (h : GoodReg o) {t u : Str} (ht : ∀ c ∈ t, c ∈ o.spaces.map (·.label))
    (hu : ∀ c ∈ u, c ∈ o.spaces.map (·.label)) (hc : ∀ s < o.spaces.length, cntSp o t s = cntSp o u s) : t.Perm u := by
  rw [List.perm_iff_count]
  intro d
  by_cases hd : d ∈ o.spaces.map (·.label)
  · have := hc _ (spOf_spec h hd).2.1
    rw [cntSp_count h ht hd, cntSp_count h hu hd] at this
    exact_mod_cast this
  · rw [List.count_eq_zero_of_not_mem (fun hh => hd (ht d hh)), List.count_eq_zero_of_not_mem (fun hh => hd (hu d hh))]

theorem cntSp_append (o : OSI) (t u : Str) (s : Nat) : cntSp o (t ++ u) s = cntSp o t s + cntSp o u s := by
  unfold cntSp; rw [List.filter_append, List.length_append]; push_cast; rfl

theorem cntSp_cons {o : OSI} (h : GoodReg o) {c : Char} (hc : c ∈ o.spaces.map (·.label)) (t : Str) (s : Nat) :
    cntSp o (c :: t) s = (if s = spOf o c then 1 else 0) + cntSp o t s := by
  unfold cntSp
  rw [List.filter_cons, (spOf_spec h hc).1]
  simp only [Except.ok.injEq, decide_eq_true_eq]
  by_cases he : s = spOf o c
  · rw [if_pos he, if_pos (by omega)]; simp; ring
  · rw [if_neg he, if_neg (by omega)]; simp

theorem sum_cntSp {o : OSI} (h : GoodReg o) (t : Str) (ht : ∀ c ∈ t, c ∈ o.spaces.map (·.label)) :
    ((List.range o.spaces.length).map (cntSp o t)).sum = t.length := by
  induction t with
  | nil =>
    have : cntSp o [] = fun _ => 0 := by funext s; simp [cntSp]
    rw [this]; simp
  | cons c t ih =>
    have hc := ht c (by simp)
    have : cntSp o (c :: t) = fun s => (if s = spOf o c then 1 else 0) + cntSp o t s := by
      funext s; exact cntSp_cons h hc t s
    rw [this, List.sum_map_add, ih (fun c hc => ht c (by simp [hc])), List.length_cons, sum_map_ite_eq]
    · push_cast; ring
    · exact List.nodup_range
    · exact List.mem_range.2 (spOf_spec h hc).2.1
where
  sum_map_ite_eq {l : List Nat} (hl : l.Nodup) {a : Nat} (ha : a ∈ l) :
      (l.map (fun s => if s = a then (1 : Int) else 0)).sum = 1 := by
    induction l with
    | nil => cases ha
    | cons x l ih =>
      rw [List.map_cons, List.sum_cons]
      rw [List.nodup_cons] at hl
      rcases List.mem_cons.1 ha with rfl | ha'
      · rw [if_pos rfl]
        have : (l.map (fun s => if s = a then (1 : Int) else 0)) = l.map (fun _ => 0) := by
          apply List.map_congr_left; intro s hs; rw [if_neg]; rintro rfl; exact hl.1 hs
        rw [this]; simp
      · rw [if_neg (by rintro rfl; exact hl.1 ha'), ih hl.2 ha', Int.zero_add]

theorem spans_cntSp {o : OSI} (h : GoodReg o) {l t : Str} (hl : ∀ c ∈ l, c ∈ o.spaces.map (·.label)) (ht : ∀ c ∈ t, c ∈ l) :
    Spans o l t.length (cntSp o t) := by
  refine ⟨fun s => by unfold cntSp; omega, fun s hs => ?_, sum_cntSp h t (fun c hc => hl c (ht c hc))⟩
  unfold cntSp at hs
  have : t.filter (fun c => decide (o.labelToSpace c = .ok (s : Int))) ≠ [] := by
    intro e; rw [e] at hs; simp at hs
  obtain ⟨c, hc⟩ := List.exists_mem_of_ne_nil _ this
  obtain ⟨h1, h2⟩ := List.mem_filter.1 hc
  exact ⟨c, ht c h1, by simpa using h2⟩

/-- letters with prescribed counts -/
def spell (o : OSI) (f : Nat → Int) : Str → Str
  | [] => []
  | c :: l => List.replicate (f (spOf o c)).toNat c ++ spell o f l

theorem mem_spell {o : OSI} {f : Nat → Int} {l : Str} {c : Char} (h : c ∈ spell o f l) : c ∈ l := by
  induction l with
  | nil => cases h
  | cons d l ih =>
    simp only [spell, List.mem_append, List.mem_replicate] at h
    rcases h with h | h
    · simp [h.2]
    · simp [ih h]

theorem cntSp_replicate {o : OSI} (h : GoodReg o) {c : Char} (hc : c ∈ o.spaces.map (·.label)) (n s : Nat) :
    cntSp o (List.replicate n c) s = if s = spOf o c then (n : Int) else 0 := by
  induction n with
  | zero => simp [cntSp]
  | succ n ih => rw [List.replicate_succ, cntSp_cons h hc, ih]; split <;> push_cast <;> ring

theorem cntSp_spell {o : OSI} (h : GoodReg o) {f : Nat → Int} (hf : ∀ s, 0 ≤ f s) {l : Str} (hn : l.Nodup)
    (hl : ∀ c ∈ l, c ∈ o.spaces.map (·.label)) (s : Nat) :
    cntSp o (spell o f l) s = if ∃ c ∈ l, spOf o c = s then f s else 0 := by
  induction l with
  | nil => simp [spell, cntSp]
  | cons c l ih =>
    have hc := hl c (by simp)
    rw [List.nodup_cons] at hn
    simp only [spell]
    rw [cntSp_append, cntSp_replicate h hc, ih hn.2 (fun c hc => hl c (by simp [hc]))]
    by_cases he : s = spOf o c
    · subst he
      have e2 : ¬ ∃ d ∈ l, spOf o d = spOf o c := by
        rintro ⟨d, hd, hh⟩
        have := spOf_inj h (hl d (by simp [hd])) hc hh
        rw [this] at hd; exact hn.1 hd
      rw [if_pos rfl, if_neg e2, if_pos ⟨c, by simp, rfl⟩, Int.toNat_of_nonneg (hf _)]; ring
    · rw [if_neg he, Int.zero_add]
      congr 1
      rw [eq_iff_iff]
      constructor
      · rintro ⟨d, hd, hh⟩; exact ⟨d, by simp [hd], hh⟩
      · rintro ⟨d, hd, hh⟩
        rcases List.mem_cons.1 hd with rfl | hd
        · exact absurd hh.symm he
        · exact ⟨d, hd, hh⟩

/-- sorted tuples with given counts: exactly one if the counts are possible, else none -/
theorem filter_sorted {o : OSI} (h : GoodReg o) {r : Nat → Nat → Prop} [DecidableRel r] (htr : IsTrans Nat r)
    (htot : ∀ a b, r a b ∨ r b a) (hanti : ∀ a b, r a b → r b a → a = b) {l : Str} (hn : l.Nodup)
    (hl : ∀ c ∈ l, c ∈ o.spaces.map (·.label)) (k : Nat) (f : Nat → Int) :
    (Spans o l k f → ∃ t, t ∈ tuples l k ∧ t.Pairwise (fun a b => r (spOf o a) (spOf o b)) ∧ ∀ s, cntSp o t s = f s) ∧
    (∀ t u, t ∈ tuples l k → u ∈ tuples l k → t.Pairwise (fun a b => r (spOf o a) (spOf o b)) →
      u.Pairwise (fun a b => r (spOf o a) (spOf o b)) → (∀ s < o.spaces.length, cntSp o t s = cntSp o u s) → t = u) := by
  constructor
  · rintro ⟨h1, h2, h3⟩
    let le : Char → Char → Bool := fun a b => decide (r (spOf o a) (spOf o b))
    have hperm := List.mergeSort_perm (spell o f l) le
    have hc : ∀ s, cntSp o ((spell o f l).mergeSort le) s = f s := by
      intro s
      rw [cntSp_perm hperm, cntSp_spell h h1 hn hl]
      split
      · rfl
      · rename_i hx
        by_contra hs
        obtain ⟨c, hc, hcs⟩ := h2 s (fun e => hs e.symm)
        refine hx ⟨c, hc, ?_⟩
        unfold spOf; rw [hcs]; simp
    have hm : ∀ c ∈ (spell o f l).mergeSort le, c ∈ l := fun c hc => mem_spell (hperm.subset hc)
    refine ⟨(spell o f l).mergeSort le, ?_, ?_, hc⟩
    · rw [mem_tuples]
      refine ⟨?_, hm⟩
      have := sum_cntSp h _ (fun c hc => hl c (hm c hc))
      have e : cntSp o ((spell o f l).mergeSort le) = f := funext hc
      rw [e, h3] at this
      exact_mod_cast this.symm
    · have := List.pairwise_mergeSort (le := le) (fun a b c h1 h2 => by
        simp only [le, decide_eq_true_eq] at *; exact htr.trans _ _ _ h1 h2)
        (fun a b => by simp only [le, Bool.or_eq_true, decide_eq_true_eq]; exact htot _ _) (spell o f l)
      simpa [le] using this
  · intro t u ht hu hts hus hc
    obtain ⟨_, ht2⟩ := mem_tuples.1 ht
    obtain ⟨_, hu2⟩ := mem_tuples.1 hu
    have hp := perm_of_cntSp h (fun c hc => hl c (ht2 c hc)) (fun c hc => hl c (hu2 c hc)) hc
    refine hp.eq_of_pairwise ?_ hts hus
    intro a b ha hb hab hba
    exact spOf_inj h (hl a (ht2 a ha)) (hl b (hu2 b hb)) (hanti _ _ hab hba)

/-! ## The component strings -/

theorem joinSp_creators (t : Str) (rest : Str) (ht : ∀ c ∈ t, isAlpha c = true) :
    findOps (joinSp (t.map (fun c => [c, '+'])) ++ (' ' :: rest)) = t.map (fun c => (c, true)) ++ findOps rest := by
  induction t with
  | nil => simp only [List.map_nil, joinSp, List.nil_append]; exact findOps_nonalpha (by decide) _
  | cons c t ih =>
    have hc := ht c (by simp)
    have ih' := ih (fun d hd => ht d (by simp [hd]))
    rcases t with _ | ⟨d, t⟩
    · simp only [List.map_cons, List.map_nil, joinSp, List.cons_append, List.nil_append]
      rw [findOps_dagger hc (Or.inl rfl), findOps_nonalpha (by decide)]
    · simp only [List.map_cons, joinSp, List.cons_append, List.nil_append] at ih' ⊢
      rw [findOps_dagger hc (Or.inl rfl), findOps_nonalpha (by decide), ih']

theorem joinSp_annihilators (t : Str) (ht : ∀ c ∈ t, isAlpha c = true) :
    findOps (joinSp (t.map (fun c => [c]))) = t.map (fun c => (c, false)) := by
  induction t with
  | nil => simp [joinSp, findOps]
  | cons c t ih =>
    have hc := ht c (by simp)
    have ih' := ih (fun d hd => ht d (by simp [hd]))
    rcases t with _ | ⟨d, t⟩
    · simp only [List.map_cons, List.map_nil, joinSp]
      rw [findOps_plain hc _ (by simp)]; simp [findOps]
    · simp only [List.map_cons, joinSp, List.cons_append, List.nil_append] at ih' ⊢
      rw [findOps_plain hc _ (by simp), findOps_nonalpha (by decide), ih']

theorem findOps_component (le re : Str) (h1 : ∀ c ∈ le, isAlpha c = true) (h2 : ∀ c ∈ re, isAlpha c = true) :
    findOps (component le re) = le.map (fun c => (c, true)) ++ re.map (fun c => (c, false)) := by
  unfold component
  rw [List.append_assoc, List.singleton_append, joinSp_creators le _ h1, joinSp_annihilators re h2]

theorem count_component (o : OSI) (le re : Str) (b : Bool) (s : Nat) :
    Component.count o (le.map (fun c => (c, true)) ++ re.map (fun c => (c, false))) b s =
      if b then cntSp o le s else cntSp o re s := by
  unfold Component.count cntSp
  rw [List.filter_append, List.length_append, List.filter_map, List.filter_map, List.length_map, List.length_map]
  cases b
  · have e1 : le.filter ((fun x : Char × Bool => x.2 == false && decide (o.labelToSpace x.1 = .ok (s : Int))) ∘ fun c => (c, true)) = [] := by
      rw [List.filter_eq_nil_iff]; intro c _; simp
    rw [e1]; simp [Function.comp_def]
  · have e1 : re.filter ((fun x : Char × Bool => x.2 == true && decide (o.labelToSpace x.1 = .ok (s : Int))) ∘ fun c => (c, false)) = [] := by
      rw [List.filter_eq_nil_iff]; intro c _; simp
    rw [e1]; simp [Function.comp_def]

/-! ## The loops -/

/-- the pairs of strings `gen_op` generates -/
def genPairs (o : OSI) (rank : Nat) (cre ann : Str) (diagonal : Bool) : List (Str × Str) :=
  ((tuples cre rank).filter (fun t => decide (t.Pairwise (fun a b => spOf o a ≤ spOf o b)))).flatMap (fun le =>
    ((tuples ann rank).filter (fun t => decide (t.Pairwise (fun a b => spOf o b ≤ spOf o a)) && (diagonal || decide (le ≠ t)))).map
      (fun re => (le, re)))

theorem inner_loop {o : OSI} (h : GoodReg o) (le : Str) (diagonal : Bool) (rs : List Str)
    (hr : ∀ t ∈ rs, ∀ c ∈ t, c ∈ o.spaces.map (·.label)) : ∀ acc : List Str,
    rs.foldlM (fun acc re => do
        if ← sortedDown o re then
          if !diagonal then
            if le ≠ re then return acc ++ [component le re] else return acc
          else return acc ++ [component le re]
        else return acc) acc =
      (.ok (acc ++ (rs.filter (fun t => decide (t.Pairwise (fun a b => spOf o b ≤ spOf o a)) &&
        (diagonal || decide (le ≠ t)))).map (component le)) : Res (List Str)) := by
  induction rs with
  | nil => intro acc; simp [pure, Except.pure]
  | cons t rs ih =>
    intro acc
    obtain ⟨b, h1, h2⟩ := sortedDown_spec h t (hr t (by simp))
    have ih' := fun acc => ih (fun t ht => hr t (by simp [ht])) acc
    simp only [bind, Except.bind, pure, Except.pure] at ih'
    simp only [List.foldlM_cons, h1, bind, Except.bind, pure, Except.pure, List.filter_cons]
    rw [show decide (t.Pairwise (fun a b => spOf o b ≤ spOf o a)) = b by
      cases b
      · rw [decide_eq_false]; intro hh; exact absurd (h2.2 hh) (by simp)
      · rw [decide_eq_true (h2.1 rfl)]]
    cases b with
    | false => simp only [Bool.false_eq_true, if_false, Bool.false_and]; exact ih' acc
    | true =>
      cases diagonal with
      | true =>
        simp only [Bool.not_true, Bool.false_eq_true, if_false, if_true, Bool.true_or, Bool.and_true]
        have := ih' (acc ++ [component le t])
        simp only [Bool.not_true, Bool.false_eq_true, if_false, Bool.true_or, Bool.and_true] at this
        rw [this]; simp
      | false =>
        simp only [Bool.not_false, if_true, Bool.false_or, Bool.true_and, ne_eq, decide_not, Bool.not_eq_eq_eq_not, Bool.not_true, decide_eq_false_iff_not]
        by_cases he : le = t
        · simp only [he, not_true_eq_false, if_false]
          have := ih' acc
          simp only [he, Bool.not_false, if_true, Bool.false_or, ne_eq, decide_not] at this
          exact this
        · simp only [he, not_false_eq_true, if_true]
          have := ih' (acc ++ [component le t])
          simp only [Bool.not_false, if_true, Bool.false_or, ne_eq, decide_not] at this
          rw [this]; simp

theorem terms_spec {o : OSI} (h : GoodReg o) (rank : Nat) (cre ann : Str) (diagonal : Bool)
    (hc : ∀ c ∈ cre, c ∈ o.spaces.map (·.label)) (ha : ∀ c ∈ ann, c ∈ o.spaces.map (·.label)) :
    terms o rank cre ann diagonal = .ok ((genPairs o rank cre ann diagonal).map (fun p => component p.1 p.2)) := by
  unfold terms genPairs
  have hta : ∀ t ∈ tuples ann rank, ∀ c ∈ t, c ∈ o.spaces.map (·.label) := fun t ht c hc => ha c ((mem_tuples.1 ht).2 c hc)
  have key : ∀ (ls : List Str) (hl : ∀ t ∈ ls, ∀ c ∈ t, c ∈ o.spaces.map (·.label)) (acc : List Str),
      ls.foldlM (fun acc le => do
        if ← sortedUp o le then
          (tuples ann rank).foldlM (fun acc re => do
            if ← sortedDown o re then
              if !diagonal then
                if le ≠ re then return acc ++ [component le re] else return acc
              else return acc ++ [component le re]
            else return acc) acc
        else return acc) acc =
      (.ok (acc ++ ((ls.filter (fun t => decide (t.Pairwise (fun a b => spOf o a ≤ spOf o b)))).flatMap (fun le =>
        ((tuples ann rank).filter (fun t => decide (t.Pairwise (fun a b => spOf o b ≤ spOf o a)) && (diagonal || decide (le ≠ t)))).map
          (fun re => (le, re)))).map (fun p => component p.1 p.2)) : Res (List Str)) := by
    intro ls
    induction ls with
    | nil => intro _ acc; simp [pure, Except.pure]
    | cons t ls ih =>
      intro hl acc
      obtain ⟨b, h1, h2⟩ := sortedUp_spec h t (hl t (by simp))
      have ih' := fun acc => ih (fun t ht => hl t (by simp [ht])) acc
      rw [List.foldlM_cons, h1, List.filter_cons]
      rw [show decide (t.Pairwise (fun a b => spOf o a ≤ spOf o b)) = b by
        cases b
        · rw [decide_eq_false]; intro hh; exact absurd (h2.2 hh) (by simp)
        · rw [decide_eq_true (h2.1 rfl)]]
      cases b with
      | false =>
        simp only [Bool.false_eq_true, if_false]
        exact ih' acc
      | true =>
        simp only [if_true]
        show ((tuples ann rank).foldlM (m := Except Fault) _ acc >>= _) = _
        rw [inner_loop h t diagonal (tuples ann rank) hta acc]
        show List.foldlM (m := Except Fault) _ _ _ = _
        rw [ih' _, List.flatMap_cons, List.map_append, List.map_map, List.append_assoc]
        rfl
  rw [key _ (fun t ht c hcc => hc c ((mem_tuples.1 ht).2 c hcc)) [], List.nil_append]

theorem mem_genPairs {o : OSI} {rank : Nat} {cre ann : Str} {diagonal : Bool} {p : Str × Str} :
    p ∈ genPairs o rank cre ann diagonal ↔
      p.1 ∈ tuples cre rank ∧ p.1.Pairwise (fun a b => spOf o a ≤ spOf o b) ∧
      p.2 ∈ tuples ann rank ∧ p.2.Pairwise (fun a b => spOf o b ≤ spOf o a) ∧ (diagonal = true ∨ p.1 ≠ p.2) := by
  unfold genPairs
  simp only [List.mem_flatMap, List.mem_filter, List.mem_map, decide_eq_true_eq, Bool.and_eq_true, Bool.or_eq_true]
  constructor
  · rintro ⟨le, ⟨h1, h2⟩, re, ⟨h3, h4, h5⟩, rfl⟩; exact ⟨h1, h2, h3, h4, h5⟩
  · rintro ⟨h1, h2, h3, h4, h5⟩; exact ⟨p.1, ⟨h1, h2⟩, p.2, ⟨h3, h4, h5⟩, rfl⟩

theorem nodup_genPairs {o : OSI} {rank : Nat} {cre ann : Str} (diagonal : Bool) (hc : cre.Nodup) (ha : ann.Nodup) :
    (genPairs o rank cre ann diagonal).Nodup := by
  unfold genPairs
  rw [List.nodup_flatMap]
  refine ⟨fun le _ => ((nodup_tuples ha rank).filter _).map (fun x y hxy => by simpa using hxy), ?_⟩
  apply ((nodup_tuples hc rank).filter _).imp
  intro a b hab t ht1 ht2
  simp only [List.mem_map] at ht1 ht2
  obtain ⟨u, _, rfl⟩ := ht1
  obtain ⟨v, _, h⟩ := ht2
  simp only [Prod.mk.injEq] at h
  exact hab h.1.symm

theorem length_filter_one {α : Type _} {l : List α} (hn : l.Nodup) (P : α → Bool)
    (hu : ∀ a ∈ l, ∀ b ∈ l, P a = true → P b = true → a = b) :
    (l.filter P).length = if ∃ a ∈ l, P a = true then 1 else 0 := by
  split
  · rename_i h
    obtain ⟨a, ha, hP⟩ := h
    have : l.filter P = [a] := by
      have hmem : ∀ b ∈ l.filter P, b = a := fun b hb => hu b (List.mem_filter.1 hb).1 a ha (List.mem_filter.1 hb).2 hP
      have hnd := hn.filter P
      have hin : a ∈ l.filter P := List.mem_filter.2 ⟨ha, hP⟩
      rcases hl : l.filter P with _ | ⟨x, t⟩
      · rw [hl] at hin; cases hin
      · rw [hl] at hmem hnd
        have hx := hmem x (by simp)
        rcases t with _ | ⟨y, t⟩
        · rw [hx]
        · have hy := hmem y (by simp)
          rw [hx, hy] at hnd
          simp at hnd
    rw [this]; rfl
  · rename_i h
    rw [List.length_eq_zero_iff, List.filter_eq_nil_iff]
    exact fun a ha hP => h ⟨a, ha, hP⟩

open Classical in
/-- **C38**: after any history of successful registrations, `gen_op(label, rank, cre, ann)` with distinct registered
letters returns each operator with `rank` creation operators in the spaces of `cre` and `rank` annihilation operators
in the spaces of `ann` with coefficient 1, and nothing else.  With `diagonal=False` it leaves out exactly those whose
two strings of labels coincide, i.e. those with all operators in one space. -/
theorem C38_gen_op (hist : List RegOp) (hok : allOk OSI.empty hist) (label cre ann : Str) (rank : Nat) (diagonal : Bool)
    (h8 : (runReg OSI.empty hist).spaces.length ≤ 8) (hnc : cre.Nodup) (hna : ann.Nodup)
    (hc : ∀ c ∈ cre, isAlpha c = true ∧ c ∈ (runReg OSI.empty hist).spaces.map (·.label))
    (ha : ∀ c ∈ ann, isAlpha c = true ∧ c ∈ (runReg OSI.empty hist).spaces.map (·.label)) :
    ∃ e, genOp (runReg OSI.empty hist) label rank cre ann diagonal = .ok e ∧ Lin.WF e ∧
      (∀ k : OperatorProduct, (∀ g, k ≠ [⟨label, g⟩]) → Lin.coef e k = 0) ∧
      ∀ g : GraphMatrix, Lin.coef e [⟨label, g⟩] =
        if Spans (runReg OSI.empty hist) cre rank g.cre ∧ Spans (runReg OSI.empty hist) ann rank g.ann ∧
          (diagonal = true ∨ ¬ SameString (runReg OSI.empty hist) g) then 1 else 0 := by
  have hR := goodReg hist hok
  revert h8 hc ha hR
  generalize runReg OSI.empty hist = o
  intro h8 hc ha hR
  have hc2 : ∀ c ∈ cre, c ∈ o.spaces.map (·.label) := fun c h => (hc c h).2
  have ha2 : ∀ c ∈ ann, c ∈ o.spaces.map (·.label) := fun c h => (ha c h).2
  have hcomp : ∀ p ∈ genPairs o rank cre ann diagonal,
      findOps (component p.1 p.2) = p.1.map (fun c => (c, true)) ++ p.2.map (fun c => (c, false)) := by
    intro p hp
    obtain ⟨h1, _, h3, _, _⟩ := mem_genPairs.1 hp
    exact findOps_component _ _ (fun c h => (hc c ((mem_tuples.1 h1).2 c h)).1) (fun c h => (ha c ((mem_tuples.1 h3).2 c h)).1)
  have hreg : ∀ c ∈ (genPairs o rank cre ann diagonal).map (fun p => component p.1 p.2), Component.Registered o (findOps c) := by
    intro c hcc
    obtain ⟨p, hp, rfl⟩ := List.mem_map.1 hcc
    rw [hcomp p hp]
    obtain ⟨h1, _, h3, _, _⟩ := mem_genPairs.1 hp
    intro x hx
    have : x.1 ∈ o.spaces.map (·.label) := by
      rcases List.mem_append.1 hx with h | h <;> obtain ⟨d, hd, rfl⟩ := List.mem_map.1 h
      · exact hc2 d ((mem_tuples.1 h1).2 d hd)
      · exact ha2 d ((mem_tuples.1 h3).2 d hd)
    exact ⟨spOf o x.1, (spOf_spec hR this).2.1, (spOf_spec hR this).1⟩
  obtain ⟨⟨e, he1, he2, he3⟩, _⟩ := C37_op_counts h8 label _ hreg
  refine ⟨e, ?_, he2, ?_, ?_⟩
  · unfold genOp
    rw [Int.toNat_natCast, terms_spec hR rank cre ann diagonal hc2 ha2]
    exact he1
  · intro k hk
    rw [he3 k, List.filter_eq_nil_iff.2]
    · rfl
    · intro c _
      have := hk (Component.operator o label (findOps c)).gm
      simp only [decide_eq_true_eq]
      exact fun h => this h
  · intro g
    rw [he3, List.filter_map, List.length_map]
    rw [length_filter_one (nodup_genPairs diagonal hnc hna)]
    · -- membership
      have hgm : ∀ p ∈ genPairs o rank cre ann diagonal,
          ([⟨label, g⟩] = [Component.operator o label (findOps (component p.1 p.2))] ↔
            (∀ s, g.cre s = cntSp o p.1 s) ∧ ∀ s, g.ann s = cntSp o p.2 s) := by
        intro p hp
        obtain ⟨h1, _, h3, _, _⟩ := mem_genPairs.1 hp
        rw [hcomp p hp]
        have hz : ∀ t : Str, (∀ c ∈ t, c ∈ o.spaces.map (·.label)) → ∀ s, 8 ≤ s → cntSp o t s = 0 := by
          intro t ht s hs
          unfold cntSp
          rw [List.filter_eq_nil_iff.2]
          · rfl
          · intro c hcc
            have := spOf_spec hR (ht c hcc)
            rw [this.1]
            simp only [Except.ok.injEq, decide_eq_true_eq]
            omega
        have hz1 := hz p.1 (fun c h => hc2 c ((mem_tuples.1 h1).2 c h))
        have hz2 := hz p.2 (fun c h => ha2 c ((mem_tuples.1 h3).2 c h))
        have key : (Component.operator o label (p.1.map (fun c => (c, true)) ++ p.2.map (fun c => (c, false)))).gm =
            GraphMatrix.tab (fun s => (cntSp o p.1 s, cntSp o p.2 s)) := by
          unfold Component.operator
          simp only [count_component, if_true, Bool.false_eq_true, if_false]
        simp only [List.cons.injEq, and_true]
        constructor
        · intro h
          have hg : g = GraphMatrix.tab (fun s => (cntSp o p.1 s, cntSp o p.2 s)) := by
            rw [← key, ← h]
          rw [hg]
          unfold GraphMatrix.cre GraphMatrix.ann
          simp only [gm_get_tab]
          constructor <;> intro s <;> split
          · rfl
          · rw [hz1 s (by omega)]
          · rfl
          · rw [hz2 s (by omega)]
        · rintro ⟨g1, g2⟩
          have : g = (Component.operator o label (p.1.map (fun c => (c, true)) ++ p.2.map (fun c => (c, false)))).gm := by
            rw [key]
            apply gm_ext2
            · intro s hs; rw [g1]; unfold GraphMatrix.cre; rw [gm_get_tab, if_pos hs]
            · intro s hs; rw [g2]; unfold GraphMatrix.ann; rw [gm_get_tab, if_pos hs]
          rw [this]; rfl
      have hle := filter_sorted hR (r := (· ≤ ·)) ⟨fun a b c => Nat.le_trans⟩ Nat.le_total (fun a b => Nat.le_antisymm)
        hnc hc2 rank g.cre
      have hge := filter_sorted hR (r := (fun a b => b ≤ a)) ⟨fun a b c h1 h2 => Nat.le_trans h2 h1⟩
        (fun a b => Nat.le_total b a) (fun a b h1 h2 => Nat.le_antisymm h2 h1) hna ha2 rank g.ann
      -- equal strings
      have hsame : ∀ t u : Str, (∀ c ∈ t, c ∈ o.spaces.map (·.label)) → (∀ c ∈ u, c ∈ o.spaces.map (·.label)) →
          t.Pairwise (fun a b => spOf o a ≤ spOf o b) → u.Pairwise (fun a b => spOf o b ≤ spOf o a) →
          (∀ s, g.cre s = cntSp o t s) → (∀ s, g.ann s = cntSp o u s) → (t = u ↔ SameString o g) := by
        intro t u htm hum hts hus h1 h2
        constructor
        · rintro rfl
          rcases t with _ | ⟨c, t⟩
          · exact ⟨0, fun s => ⟨by rw [h1, h2], fun _ => by rw [h1]; rfl⟩⟩
          · refine ⟨spOf o c, fun s => ⟨by rw [h1, h2], fun hs => ?_⟩⟩
            rw [h1]
            unfold cntSp
            rw [List.filter_eq_nil_iff.2]
            · rfl
            · intro d hd
              have hds : spOf o d = spOf o c := by
                rcases List.mem_cons.1 hd with rfl | hd
                · rfl
                · rw [List.pairwise_cons] at hts hus
                  exact Nat.le_antisymm (hus.1 d hd) (hts.1 d hd)
              rw [(spOf_spec hR (htm d hd)).1]
              simp only [Except.ok.injEq, decide_eq_true_eq]
              omega
        · rintro ⟨s, hs⟩
          have hp : t.Perm u := perm_of_cntSp hR htm hum (fun x _ => by rw [← h1, ← h2, (hs x).1])
          have hall : ∀ c ∈ t, spOf o c = s := by
            intro c hcc
            by_contra hne
            have h0 := (hs (spOf o c)).2 hne
            rw [h1, cntSp_count hR htm (htm c hcc)] at h0
            have : 0 < t.count c := List.count_pos_iff.2 hcc
            omega
          rcases t with _ | ⟨c, t⟩
          · exact (List.nil_perm.1 hp).symm
          · have e1 : ∀ d ∈ c :: t, d = c := fun d hd => spOf_inj hR (htm d hd) (htm c (by simp)) (by rw [hall d hd, hall c (by simp)])
            have e2 : ∀ d ∈ u, d = c := fun d hd => e1 d (hp.symm.subset hd)
            rw [List.eq_replicate_of_mem e1, List.eq_replicate_of_mem e2, hp.length_eq]
      by_cases hS : Spans o cre rank g.cre ∧ Spans o ann rank g.ann ∧ (diagonal = true ∨ ¬ SameString o g)
      · rw [if_pos hS, if_pos, Nat.cast_one]
        obtain ⟨s1, s2, s3⟩ := hS
        obtain ⟨t, t1, t2, t3⟩ := hle.1 s1
        obtain ⟨u, u1, u2, u3⟩ := hge.1 s2
        have hp : (t, u) ∈ genPairs o rank cre ann diagonal := by
          refine mem_genPairs.2 ⟨t1, t2, u1, u2, ?_⟩
          rcases s3 with s3 | s3
          · exact Or.inl s3
          · right
            exact fun h => s3 ((hsame t u (fun c h => hc2 c ((mem_tuples.1 t1).2 c h)) (fun c h => ha2 c ((mem_tuples.1 u1).2 c h))
              t2 u2 (fun s => (t3 s).symm) (fun s => (u3 s).symm)).1 h)
        refine ⟨(t, u), hp, ?_⟩
        simp only [Function.comp_apply, decide_eq_true_eq]
        exact (hgm _ hp).2 ⟨fun s => (t3 s).symm, fun s => (u3 s).symm⟩
      · rw [if_neg hS, if_neg, Nat.cast_zero]
        rintro ⟨p, hp, hP⟩
        simp only [Function.comp_apply, decide_eq_true_eq] at hP
        obtain ⟨g1, g2⟩ := (hgm p hp).1 hP
        obtain ⟨p1, p2, p3, p4, p5⟩ := mem_genPairs.1 hp
        have eg1 : g.cre = cntSp o p.1 := funext g1
        have eg2 : g.ann = cntSp o p.2 := funext g2
        refine hS ⟨?_, ?_, ?_⟩
        · have := spans_cntSp hR hc2 (mem_tuples.1 p1).2
          rw [(mem_tuples.1 p1).1] at this
          rw [eg1]; exact this
        · have := spans_cntSp hR ha2 (mem_tuples.1 p3).2
          rw [(mem_tuples.1 p3).1] at this
          rw [eg2]; exact this
        · rcases p5 with p5 | p5
          · exact Or.inl p5
          · right
            exact fun h => p5 ((hsame p.1 p.2 (fun c h => hc2 c ((mem_tuples.1 p1).2 c h)) (fun c h => ha2 c ((mem_tuples.1 p3).2 c h))
              p2 p4 g1 g2).2 h)
    · -- uniqueness
      intro p hp q hq hP hQ
      simp only [Function.comp_apply, decide_eq_true_eq] at hP hQ
      have hpq : Component.operator o label (findOps (component p.1 p.2)) =
          Component.operator o label (findOps (component q.1 q.2)) := by
        rw [hP] at hQ; simpa using hQ
      rw [hcomp p hp, hcomp q hq] at hpq
      unfold Component.operator at hpq
      simp only [count_component, if_true, Bool.false_eq_true, if_false, Operator.mk.injEq, true_and] at hpq
      have hget := fun s => congrArg (fun x => GraphMatrix.get x s) hpq
      simp only [gm_get_tab] at hget
      obtain ⟨p1, p2, p3, p4, _⟩ := mem_genPairs.1 hp
      obtain ⟨q1, q2, q3, q4, _⟩ := mem_genPairs.1 hq
      have hle := (filter_sorted hR (r := (· ≤ ·)) ⟨fun a b c => Nat.le_trans⟩ Nat.le_total (fun a b => Nat.le_antisymm)
        hnc hc2 rank g.cre).2 p.1 q.1 p1 q1 p2 q2 (fun s hs => by
          have := hget s; rw [if_pos (by omega), if_pos (by omega)] at this; exact (Prod.mk.inj this).1)
      have hge := (filter_sorted hR (r := (fun a b => b ≤ a)) ⟨fun a b c h1 h2 => Nat.le_trans h2 h1⟩
        (fun a b => Nat.le_total b a) (fun a b h1 h2 => Nat.le_antisymm h2 h1) hna ha2 rank g.ann).2 p.2 q.2 p3 q3 p4 q4
        (fun s hs => by
          have := hget s; rw [if_pos (by omega), if_pos (by omega)] at this; exact (Prod.mk.inj this).2)
      exact Prod.ext hle hge

/-- the history that registers `c`, `a`, `v` -/
def mrHistory : List RegOp :=
  [.add 'c' .fermion .occupied [['i']] [], .add 'a' .fermion .general [['u']] [], .add 'v' .fermion .unoccupied [['e']] []]

-- the call of the documentation: `gen_op("T", 1, "av", "ca", diagonal=False)`
example : allOk OSI.empty mrHistory ∧ (runReg OSI.empty mrHistory).spaces.length ≤ 8 ∧ ['a', 'v'].Nodup ∧
    (∀ c ∈ ['a', 'v'], isAlpha c = true ∧ c ∈ (runReg OSI.empty mrHistory).spaces.map (·.label)) ∧
    genOp (runReg OSI.empty mrHistory) "T".toList 1 "av".toList "ca".toList false =
      .ok [([mkOp "T" [(0, 0), (0, 1), (1, 0)]], ⟨1, 1⟩), ([mkOp "T" [(0, 1), (0, 0), (1, 0)]], ⟨1, 1⟩),
        ([mkOp "T" [(0, 1), (1, 0)]], ⟨1, 1⟩)] := by
  refine ⟨⟨?_, ?_, ?_, trivial⟩, ?_, ?_, ?_, ?_⟩ <;> decide +kernel

/-- **C38**, what `diagonal=False` does not do: `gen_op("T", 2, "ca", "ca", diagonal=False)` still contains the component
with one creation and one annihilation operator in each of `c` and `a`, because its label strings `ca` and `ac` are
sorted in opposite directions. -/
theorem C38_diagonal_kept : ∃ e, genOp (runReg OSI.empty mrHistory) "T".toList 2 "ca".toList "ca".toList false = .ok e ∧
    Lin.coef e [mkOp "T" [(1, 1), (1, 1)]] = 1 := by
  refine ⟨_, (show genOp (runReg OSI.empty mrHistory) "T".toList 2 "ca".toList "ca".toList false =
    .ok [([mkOp "T" [(0, 1), (2, 1)]], ⟨1, 1⟩), ([mkOp "T" [(0, 2), (2, 0)]], ⟨1, 1⟩), ([mkOp "T" [(1, 0), (1, 2)]], ⟨1, 1⟩),
      ([mkOp "T" [(1, 1), (1, 1)]], ⟨1, 1⟩), ([mkOp "T" [(1, 2), (1, 0)]], ⟨1, 1⟩), ([mkOp "T" [(2, 0), (0, 2)]], ⟨1, 1⟩),
      ([mkOp "T" [(2, 1), (0, 1)]], ⟨1, 1⟩)] by decide +kernel), ?_⟩
  unfold Lin.coef
  rw [show SMap.find _ _ = some (⟨1, 1⟩ : Rational) by decide +kernel]
  simp [toRat]

end Wicked
