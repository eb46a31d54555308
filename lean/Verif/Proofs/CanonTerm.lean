import Verif.Props.Canon
import Verif.Proofs.Lin
import Mathlib.Data.Fintype.BigOperators
import Mathlib.Data.Finset.Image
/-! # Lemmas for `SymbolicTerm::canonicalize` -/
namespace Wicked
open CppLt CppEq Rational

/-! ### results of monadic loops -/

theorem mapM_ok_iff {α β : Type} (f : α → Res β) : ∀ (l : List α) (r : List β),
    l.mapM (m := Except Fault) f = .ok r ↔ List.Forall₂ (fun a b => f a = .ok b) l r
  | [], r => by
    rw [List.mapM_nil]
    constructor
    · intro h; cases h; exact List.Forall₂.nil
    · intro h; cases h; rfl
  | a :: l, r => by
    rw [List.mapM_cons]
    constructor
    · intro h
      cases ha : f a with
      | error e => rw [ha] at h; cases h
      | ok b =>
        rw [ha] at h
        simp only [bind, Except.bind] at h
        cases hl : l.mapM (m := Except Fault) f with
        | error e => rw [hl] at h; cases h
        | ok r' =>
          rw [hl] at h; cases h
          exact List.Forall₂.cons ha ((mapM_ok_iff f l r').1 hl)
    · intro h
      cases h with
      | cons h1 h2 =>
        rw [h1]
        simp only [bind, Except.bind]
        rw [(mapM_ok_iff f l _).2 h2]; rfl

theorem mapM_ok_of {α β : Type} (f : α → Res β) (l : List α) (h : ∀ a ∈ l, ∃ b, f a = .ok b) :
    ∃ r, l.mapM (m := Except Fault) f = .ok r := by
  induction l with
  | nil => exact ⟨[], rfl⟩
  | cons a l ih =>
    obtain ⟨b, hb⟩ := h a (List.mem_cons_self ..)
    obtain ⟨r, hr⟩ := ih (fun x hx => h x (List.mem_cons_of_mem _ hx))
    exact ⟨b :: r, (mapM_ok_iff f _ _).2 (List.Forall₂.cons hb ((mapM_ok_iff f _ _).1 hr))⟩

/-- counter value of space `s` -/
def cnt (c : List Int) (s : Int) : Int := c.getD s.toNat 0

theorem incr_ok_iff (c : List Int) (s : Int) (c' : List Int) :
    incr c s = .ok c' ↔ (0 ≤ s ∧ s.toNat < c.length) ∧ c' = c.modify s.toNat (· + 1) := by
  unfold incr
  split
  · constructor
    · intro h'; cases h'; exact ⟨by assumption, rfl⟩
    · rintro ⟨_, rfl⟩; rfl
  · constructor
    · intro h; cases h
    · rintro ⟨h, _⟩; exact absurd h (by assumption)

theorem incr_spec {c : List Int} {s : Int} {c' : List Int} (h : incr c s = .ok c') :
    c'.length = c.length ∧ ∀ s', 0 ≤ s' → cnt c' s' = cnt c s' + if s' = s then 1 else 0 := by
  obtain ⟨⟨h1, h2⟩, rfl⟩ := (incr_ok_iff c s c').1 h
  refine ⟨by simp, fun s' hs' => ?_⟩
  unfold cnt
  simp only [List.getD_eq_getElem?_getD, List.getElem?_modify]
  by_cases he : s' = s
  · subst he
    simp [h2]
  · have : s.toNat ≠ s'.toNat := by omega
    simp [this, he]

theorem foldIncr_spec {β : Type} (g : β → Int) : ∀ (l : List β) (c c' : List Int),
    l.foldlM (fun c b => incr c (g b)) c = (.ok c' : Res _) →
    c'.length = c.length ∧ (∀ b ∈ l, 0 ≤ g b ∧ (g b).toNat < c.length) ∧
      ∀ s', 0 ≤ s' → cnt c' s' = cnt c s' + ((l.filter (fun b => decide (g b = s'))).length : Int)
  | [], c, c', h => by
    rw [List.foldlM_nil] at h; cases h
    exact ⟨rfl, by simp, by simp⟩
  | b :: l, c, c', h => by
    rw [List.foldlM_cons] at h
    cases h1 : incr c (g b) with
    | error e => rw [h1] at h; cases h
    | ok c1 =>
      rw [h1] at h
      obtain ⟨i1, i2⟩ := incr_spec h1
      obtain ⟨j1, j2, j3⟩ := foldIncr_spec g l c1 c' h
      refine ⟨by omega, ?_, ?_⟩
      · intro b' hb'
        rcases List.mem_cons.1 hb' with rfl | hb'
        · exact ((incr_ok_iff _ _ _).1 h1).1
        · have := j2 b' hb'; rw [i1] at this; exact this
      · intro s' hs'
        rw [j3 s' hs', i2 s' hs', List.filter_cons]
        by_cases he : g b = s'
        · subst he; simp; omega
        · simp [he, Ne.symm he]

theorem foldIncr_ok {β : Type} (g : β → Int) : ∀ (l : List β) (c : List Int),
    (∀ b ∈ l, 0 ≤ g b ∧ (g b).toNat < c.length) →
    ∃ c', l.foldlM (fun c b => incr c (g b)) c = (.ok c' : Res _)
  | [], c, _ => ⟨c, rfl⟩
  | b :: l, c, h => by
    have h1 := (incr_ok_iff c (g b) _).2 ⟨h b (List.mem_cons_self ..), rfl⟩
    obtain ⟨c', hc'⟩ := foldIncr_ok g l (c.modify (g b).toNat (· + 1)) (by
      intro b' hb'; simpa using h b' (List.mem_cons_of_mem _ hb'))
    refine ⟨c', ?_⟩
    rw [List.foldlM_cons, h1]; exact hc'

theorem cnt_zero (n : Nat) (s : Int) : cnt (List.replicate n 0) s = 0 := by
  unfold cnt
  simp only [List.getD_eq_getElem?_getD, List.getElem?_replicate]
  split <;> rfl

/-! ### the relabelling map -/

theorem SMap.insert_perm {κ ν : Type _} [CppLt κ] [StrictWeak κ] {k : κ} {v : ν} {m : SMap κ ν}
    (hs : SMap.Srt m) (h : SMap.find k m = none) : (SMap.insert k v m).Perm ((k, v) :: m) := by
  induction m with
  | nil => simp [SMap.insert]
  | cons q m ih =>
    rcases q with ⟨a, w⟩
    rw [SMap.find] at h
    rw [SMap.insert]
    split
    · rename_i h1
      rw [h1] at h
      exact ((ih (List.pairwise_cons.1 hs).2 h).cons _).trans (List.Perm.swap ..)
    · rename_i h1
      simp only [h1] at h
      split
      · exact List.Perm.refl _
      · rename_i h2; simp [h2] at h

structure RInv (opIdx : List Index) (n : Nat) (tc0 : List Int) (st : STerm.Relabel) : Prop where
  srt : SMap.Srt st.map
  len1 : st.sqopCount.length = n
  len2 : st.tensCount.length = n
  space : ∀ p ∈ st.map, p.2.space = p.1.space ∧ 0 ≤ p.1.space ∧ p.1.space.toNat < n
  op : ∀ p ∈ st.map, p.1 ∈ opIdx → 0 ≤ p.2.pos ∧ p.2.pos < cnt st.sqopCount p.1.space
  nop : ∀ p ∈ st.map, p.1 ∉ opIdx → cnt tc0 p.1.space ≤ p.2.pos ∧ p.2.pos < cnt st.tensCount p.1.space
  inj : ∀ p ∈ st.map, ∀ q ∈ st.map, (p.1 ∈ opIdx ↔ q.1 ∈ opIdx) → p.2 = q.2 → p.1 = q.1
  cntOp : ∀ s, 0 ≤ s → cnt st.sqopCount s =
    ((st.map.filter (fun p => decide (p.1 ∈ opIdx ∧ p.1.space = s))).length : Int)
  cntNop : ∀ s, 0 ≤ s → cnt st.tensCount s = cnt tc0 s +
    ((st.map.filter (fun p => decide (p.1 ∉ opIdx ∧ p.1.space = s))).length : Int)

theorem rinv_init (opIdx : List Index) (n : Nat) (tc0 : List Int) (h : tc0.length = n) :
    RInv opIdx n tc0 ⟨List.replicate n 0, tc0, []⟩ where
  srt := List.Pairwise.nil
  len1 := by simp
  len2 := h
  space := by simp
  op := by simp
  nop := by simp
  inj := by simp
  cntOp := by intro s _; rw [cnt_zero]; simp
  cntNop := by intro s _; simp

theorem rinv_step {opIdx : List Index} {n : Nat} {tc0 : List Int} {st st' : STerm.Relabel} {l : Index}
    (h : RInv opIdx n tc0 st) (hs : STerm.relabelStep opIdx st l = .ok st') :
    RInv opIdx n tc0 st' ∧ (∀ p, p ∈ st.map → p ∈ st'.map) ∧ (∃ v, (l, v) ∈ st'.map) ∧
      (∀ p ∈ st'.map, p.1 = l ∨ p ∈ st.map) := by
  unfold STerm.relabelStep at hs
  cases hf : st.map.find l with
  | some v =>
    rw [hf] at hs; cases hs
    obtain ⟨p, hp, he, rfl⟩ := SMap.find_some_mem hf
    rw [eqv_eq] at he; subst he
    exact ⟨h, fun _ hp => hp, ⟨p.2, hp⟩, fun p hp => Or.inr hp⟩
  | none =>
    rw [hf] at hs
    simp only at hs
    have hnot : ∀ p ∈ st.map, p.1 ≠ l := by
      rintro p hp rfl
      rw [SMap.find_of_mem h.srt hp] at hf; cases hf
    split at hs
    · rename_i hop
      have hop : l ∈ opIdx := by simpa using hop
      cases hi : incr st.sqopCount l.space with
      | error e => rw [hi] at hs; cases hs
      | ok c =>
        rw [hi] at hs; cases hs
        obtain ⟨⟨i1, i2⟩, _⟩ := (incr_ok_iff _ _ _).1 hi
        obtain ⟨i3, i4⟩ := incr_spec hi
        have hperm := SMap.insert_perm (v := (⟨l.space, st.sqopCount.getD l.space.toNat 0⟩ : Index)) h.srt hf
        have hmem : ∀ p, p ∈ SMap.insert l ⟨l.space, st.sqopCount.getD l.space.toNat 0⟩ st.map ↔
            p = (l, ⟨l.space, cnt st.sqopCount l.space⟩) ∨ p ∈ st.map := by
          intro p; rw [hperm.mem_iff]; exact List.mem_cons
        have hc0 : 0 ≤ cnt st.sqopCount l.space := by rw [h.cntOp _ i1]; exact Int.natCast_nonneg _
        refine ⟨⟨SMap.srt_insert h.srt, by simp [i3, h.len1], h.len2, ?_, ?_, ?_, ?_, ?_, ?_⟩, ?_, ?_, ?_⟩
        · intro p hp
          rcases (hmem p).1 hp with rfl | hp
          · exact ⟨rfl, i1, by rw [h.len1] at i2; exact i2⟩
          · exact h.space p hp
        · intro p hp hpo
          rcases (hmem p).1 hp with rfl | hp
          · simp only; rw [i4 _ i1]; simp; exact hc0
          · have h1 := h.op p hp hpo
            have h2 := (h.space p hp).2.1
            simp only; rw [i4 _ h2]; split <;> omega
        · intro p hp hpo
          rcases (hmem p).1 hp with rfl | hp
          · exact absurd hop hpo
          · exact h.nop p hp hpo
        · intro p hp q hq hpq he
          rcases (hmem p).1 hp with rfl | hp <;> rcases (hmem q).1 hq with rfl | hq
          · rfl
          · exfalso
            have h1 := (h.op q hq (hpq.1 hop)).2
            have h2 := (h.space q hq).1
            rw [← he] at h1 h2
            simp only at h1 h2
            rw [← h2] at h1; omega
          · exfalso
            have h1 := (h.op p hp (hpq.2 hop)).2
            have h2 := (h.space p hp).1
            rw [he] at h1 h2
            simp only at h1 h2
            rw [← h2] at h1; omega
          · exact h.inj p hp q hq hpq he
        · intro s hs
          simp only
          rw [i4 s hs, h.cntOp s hs, (hperm.filter _).length_eq, List.filter_cons]
          by_cases he : s = l.space
          · subst he; simp [hop]
          · simp [hop, he, Ne.symm he]
        · intro s hs
          simp only
          rw [h.cntNop s hs, (hperm.filter _).length_eq, List.filter_cons]
          simp [hop]
        · intro p hp; exact (hmem p).2 (Or.inr hp)
        · exact ⟨_, (hmem _).2 (Or.inl rfl)⟩
        · intro p hp
          rcases (hmem p).1 hp with rfl | hp
          · exact Or.inl rfl
          · exact Or.inr hp
    · rename_i hop
      have hop : l ∉ opIdx := by simpa using hop
      cases hi : incr st.tensCount l.space with
      | error e => rw [hi] at hs; cases hs
      | ok c =>
        rw [hi] at hs; cases hs
        obtain ⟨⟨i1, i2⟩, _⟩ := (incr_ok_iff _ _ _).1 hi
        obtain ⟨i3, i4⟩ := incr_spec hi
        have hperm := SMap.insert_perm (v := (⟨l.space, st.tensCount.getD l.space.toNat 0⟩ : Index)) h.srt hf
        have hmem : ∀ p, p ∈ SMap.insert l ⟨l.space, st.tensCount.getD l.space.toNat 0⟩ st.map ↔
            p = (l, ⟨l.space, cnt st.tensCount l.space⟩) ∨ p ∈ st.map := by
          intro p; rw [hperm.mem_iff]; exact List.mem_cons
        have hc0 : cnt tc0 l.space ≤ cnt st.tensCount l.space := by rw [h.cntNop _ i1]; omega
        refine ⟨⟨SMap.srt_insert h.srt, h.len1, by simp [i3, h.len2], ?_, ?_, ?_, ?_, ?_, ?_⟩, ?_, ?_, ?_⟩
        · intro p hp
          rcases (hmem p).1 hp with rfl | hp
          · exact ⟨rfl, i1, by rw [h.len2] at i2; exact i2⟩
          · exact h.space p hp
        · intro p hp hpo
          rcases (hmem p).1 hp with rfl | hp
          · exact absurd hpo hop
          · exact h.op p hp hpo
        · intro p hp hpo
          rcases (hmem p).1 hp with rfl | hp
          · simp only; rw [i4 _ i1]; simp; exact hc0
          · have h1 := h.nop p hp hpo
            have h2 := (h.space p hp).2.1
            simp only; rw [i4 _ h2]; split <;> omega
        · intro p hp q hq hpq he
          rcases (hmem p).1 hp with rfl | hp <;> rcases (hmem q).1 hq with rfl | hq
          · rfl
          · exfalso
            have h1 := (h.nop q hq (fun hh => hop (hpq.2 hh))).2
            have h2 := (h.space q hq).1
            rw [← he] at h1 h2
            simp only at h1 h2
            rw [← h2] at h1; omega
          · exfalso
            have h1 := (h.nop p hp (fun hh => hop (hpq.1 hh))).2
            have h2 := (h.space p hp).1
            rw [he] at h1 h2
            simp only at h1 h2
            rw [← h2] at h1; omega
          · exact h.inj p hp q hq hpq he
        · intro s hs
          simp only
          rw [h.cntOp s hs, (hperm.filter _).length_eq, List.filter_cons]
          simp [hop]
        · intro s hs
          simp only
          rw [i4 s hs, h.cntNop s hs, (hperm.filter _).length_eq, List.filter_cons]
          by_cases he : s = l.space
          · subst he; simp [hop]; omega
          · simp [hop, he, Ne.symm he]
        · intro p hp; exact (hmem p).2 (Or.inr hp)
        · exact ⟨_, (hmem _).2 (Or.inl rfl)⟩
        · intro p hp
          rcases (hmem p).1 hp with rfl | hp
          · exact Or.inl rfl
          · exact Or.inr hp

theorem rinv_fold {opIdx : List Index} {n : Nat} {tc0 : List Int} : ∀ (l : List Index) (st st' : STerm.Relabel),
    RInv opIdx n tc0 st → l.foldlM (STerm.relabelStep opIdx) st = .ok st' →
    RInv opIdx n tc0 st' ∧ (∀ p, p ∈ st.map → p ∈ st'.map) ∧ (∀ i ∈ l, ∃ v, (i, v) ∈ st'.map) ∧
      (∀ p ∈ st'.map, p.1 ∈ l ∨ p ∈ st.map)
  | [], st, st', h, hs => by
    rw [List.foldlM_nil] at hs; cases hs
    exact ⟨h, fun _ hp => hp, by simp, fun p hp => Or.inr hp⟩
  | i :: l, st, st', h, hs => by
    rw [List.foldlM_cons] at hs
    cases h1 : STerm.relabelStep opIdx st i with
    | error e => rw [h1] at hs; cases hs
    | ok st1 =>
      rw [h1] at hs
      obtain ⟨a1, a2, a3, a4⟩ := rinv_step h h1
      obtain ⟨b1, b2, b3, b4⟩ := rinv_fold l st1 st' a1 hs
      refine ⟨b1, fun p hp => b2 p (a2 p hp), ?_, ?_⟩
      · intro j hj
        rcases List.mem_cons.1 hj with rfl | hj
        · obtain ⟨v, hv⟩ := a3; exact ⟨v, b2 _ hv⟩
        · exact b3 j hj
      · intro p hp
        rcases b4 p hp with hp | hp
        · exact Or.inl (List.mem_cons_of_mem _ hp)
        · rcases a4 p hp with rfl | hp
          · exact Or.inl (List.mem_cons_self ..)
          · exact Or.inr hp

/-- distinct keys: the number of operator keys of a space is at most the number of operators there -/
theorem opKeys_le {opIdx : List Index} {m : IndexMap} (hs : SMap.Srt m) (s : Int) :
    (m.filter (fun p => decide (p.1 ∈ opIdx ∧ p.1.space = s))).length ≤
      (opIdx.filter (fun i => decide (i.space = s))).length := by
  have hnd : ((m.filter (fun p => decide (p.1 ∈ opIdx ∧ p.1.space = s))).map Prod.fst).Nodup := by
    have h1 : (m.map Prod.fst).Nodup := by
      rw [List.Nodup, List.pairwise_map]
      refine hs.imp ?_
      intro a b h he
      rw [he, StrictWeak.irrefl] at h; cases h
    exact h1.sublist ((List.filter_sublist).map _)
  have hsub : ((m.filter (fun p => decide (p.1 ∈ opIdx ∧ p.1.space = s))).map Prod.fst) ⊆
      opIdx.filter (fun i => decide (i.space = s)) := by
    intro i hi
    obtain ⟨p, hp, rfl⟩ := List.mem_map.1 hi
    obtain ⟨_, h2⟩ := List.mem_filter.1 hp
    simp only [decide_eq_true_eq] at h2
    exact List.mem_filter.2 ⟨h2.1, by simpa using h2.2⟩
  have := (List.subperm_of_subset hnd hsub).length_le
  simpa using this

/-- the relabelling is injective on the keys -/
theorem rinv_injective {opIdx : List Index} {n : Nat} {tc0 : List Int} {st : STerm.Relabel}
    (htc : ∀ s, 0 ≤ s → cnt tc0 s = ((opIdx.filter (fun i => decide (i.space = s))).length : Int))
    (h : RInv opIdx n tc0 st) : ∀ p ∈ st.map, ∀ q ∈ st.map, p.2 = q.2 → p.1 = q.1 := by
  have key : ∀ p ∈ st.map, ∀ q ∈ st.map, p.1 ∈ opIdx → q.1 ∉ opIdx → p.2 ≠ q.2 := by
    intro p hp q hq hpo hqo he
    have h1 := (h.op p hp hpo).2
    have h2 := (h.nop q hq hqo).1
    have h3 := (h.space p hp)
    have h4 := (h.space q hq).1
    rw [he] at h1 h3
    rw [h3.1] at h4
    rw [h.cntOp _ h3.2.1] at h1
    rw [← h4, htc _ h3.2.1] at h2
    have := opKeys_le (opIdx := opIdx) h.srt p.1.space
    omega
  intro p hp q hq he
  by_cases h1 : p.1 ∈ opIdx <;> by_cases h2 : q.1 ∈ opIdx
  · exact h.inj p hp q hq (by simp [h1, h2]) he
  · exact absurd he (key p hp q hq h1 h2)
  · exact absurd he.symm (key q hq p hp h2 h1)
  · exact h.inj p hp q hq (by simp [h1, h2]) he

theorem applyMap_mem {m : IndexMap} (hs : SMap.Srt m) {i v : Index} (h : (i, v) ∈ m) : applyMap m i = v := by
  unfold applyMap
  rw [SMap.find_of_mem hs h]; rfl

end Wicked
