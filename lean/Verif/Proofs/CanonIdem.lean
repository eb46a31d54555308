import Verif.Proofs.CanonRelabel
/-! # Lemmas for C64: relabelling a relabelled term -/
namespace Wicked
open CppLt CppEq STerm

/-- counters: kind of index (operator or not) and space -/
abbrev Ctr := Bool → Nat → Int

/-- the counters of the loop -/
def STerm.Relabel.ctr (st : Relabel) : Ctr := fun k s => if k then st.sqopCount.getD s 0 else st.tensCount.getD s 0

def bump (C : Ctr) (k : Bool) (s : Nat) : Ctr := fun k' s' => if k' = k ∧ s' = s then C k s + 1 else C k' s'

/-- new indices come with consecutive positions, old ones with smaller positions -/
inductive Consec (κ : Index → Bool) : Ctr → List Index → Ctr → Prop where
  | nil (C) : Consec κ C [] C
  | old {C C' i l} : i.pos < C (κ i) i.space.toNat → Consec κ C l C' → Consec κ C (i :: l) C'
  | new {C C' i l} : i.pos = C (κ i) i.space.toNat → Consec κ (bump C (κ i) i.space.toNat) l C' → Consec κ C (i :: l) C'

theorem consec_append {κ : Index → Bool} {l m : List Index} : ∀ {C C' : Ctr}, Consec κ C (l ++ m) C' ↔ ∃ D, Consec κ C l D ∧ Consec κ D m C' := by
  induction l with
  | nil =>
    intro C C'
    constructor
    · intro h; exact ⟨C, .nil C, h⟩
    · rintro ⟨D, h1, h2⟩; cases h1; exact h2
  | cons i l ih =>
    intro C C'
    constructor
    · intro h
      rw [List.cons_append] at h
      cases h with
      | old h1 h2 => obtain ⟨D, a, b⟩ := ih.1 h2; exact ⟨D, .old h1 a, b⟩
      | new h1 h2 => obtain ⟨D, a, b⟩ := ih.1 h2; exact ⟨D, .new h1 a, b⟩
    · rintro ⟨D, h1, h2⟩
      cases h1 with
      | old h3 h4 => exact .old h3 (ih.2 ⟨D, h4, h2⟩)
      | new h3 h4 => exact .new h3 (ih.2 ⟨D, h4, h2⟩)

/-- what `Consec` says without the order of the list -/
structure Chars (κ : Index → Bool) (C : Ctr) (l : List Index) (C' : Ctr) : Prop where
  le : ∀ k s, C k s ≤ C' k s
  bound : ∀ i ∈ l, i.pos < C' (κ i) i.space.toNat
  cover : ∀ k s p, C k s ≤ p → p < C' k s → (⟨(s : Int), p⟩ : Index) ∈ l ∧ κ ⟨(s : Int), p⟩ = k

theorem consec_chars {κ : Index → Bool} {C C' : Ctr} {l : List Index} (hreg : ∀ i ∈ l, 0 ≤ i.space) (h : Consec κ C l C') : Chars κ C l C' := by
  induction h with
  | nil C => exact ⟨fun _ _ => le_refl _, by simp, fun k s p h1 h2 => by omega⟩
  | @old C C' i l h1 h2 ih =>
    have ih := ih (fun j hj => hreg j (by simp [hj]))
    refine ⟨ih.le, ?_, fun k s p h1 h2 => ⟨by simp [(ih.cover k s p h1 h2).1], (ih.cover k s p h1 h2).2⟩⟩
    intro j hj
    rcases List.mem_cons.1 hj with rfl | hj
    · exact lt_of_lt_of_le h1 (ih.le _ _)
    · exact ih.bound j hj
  | @new C C' i l h1 h2 ih =>
    have ih := ih (fun j hj => hreg j (by simp [hj]))
    have hi := hreg i (by simp)
    have hb : bump C (κ i) i.space.toNat (κ i) i.space.toNat = C (κ i) i.space.toNat + 1 := by simp [bump]
    have hle : ∀ k s, C k s ≤ bump C (κ i) i.space.toNat k s := by
      intro k s
      unfold bump
      split
      · rename_i h; rw [h.1, h.2]; omega
      · exact le_refl _
    refine ⟨fun k s => (hle k s).trans (ih.le k s), ?_, ?_⟩
    · intro j hj
      rcases List.mem_cons.1 hj with rfl | hj
      · have := ih.le (κ j) j.space.toNat
        rw [hb] at this
        omega
      · exact ih.bound j hj
    · intro k s p h3 h4
      by_cases hp : bump C (κ i) i.space.toNat k s ≤ p
      · exact ⟨by simp [(ih.cover k s p hp h4).1], (ih.cover k s p hp h4).2⟩
      · unfold bump at hp
        split at hp
        · rename_i h
          have hpi : (⟨(s : Int), p⟩ : Index) = i := by
            obtain ⟨sp, ps⟩ := i
            simp only at h1 h hp hi ⊢
            rw [h.1, h.2] at h3
            rw [Index.mk.injEq]
            omega
          rw [hpi]
          exact ⟨by simp, h.1.symm⟩
        · omega

theorem chars_consec {κ : Index → Bool} {C' : Ctr} {l : List Index} (hreg : ∀ i ∈ l, 0 ≤ i.space) (hsort : l.Pairwise (fun a b => Index.lt b a = false)) :
    ∀ {C : Ctr}, Chars κ C l C' → Consec κ C l C' := by
  induction l with
  | nil =>
    intro C h
    have : C = C' := by
      funext k s
      by_contra hn
      have h1 := h.le k s
      have := (h.cover k s (C k s) (le_refl _) (by omega)).1
      simp at this
    rw [this]
    exact .nil _
  | cons i l ih =>
    intro C h
    have hs := List.pairwise_cons.1 hsort
    have hi := hreg i (by simp)
    have ih := @ih (fun j hj => hreg j (by simp [hj])) hs.2
    by_cases hlt : i.pos < C (κ i) i.space.toNat
    · refine .old hlt (ih ⟨h.le, fun j hj => h.bound j (by simp [hj]), ?_⟩)
      intro k s p h1 h2
      obtain ⟨a, b⟩ := h.cover k s p h1 h2
      refine ⟨?_, b⟩
      rcases List.mem_cons.1 a with a | a
      · exfalso
        rw [← a] at hlt
        rw [b] at hlt
        simp only [Int.toNat_natCast] at hlt
        omega
      · exact a
    · have hbd := h.bound i (by simp)
      obtain ⟨a, b⟩ := h.cover (κ i) i.space.toNat (C (κ i) i.space.toNat) (le_refl _) (by omega)
      have hsp : ((i.space.toNat : Nat) : Int) = i.space := by omega
      have heq : i.pos = C (κ i) i.space.toNat := by
        rcases List.mem_cons.1 a with a | a
        · rw [← congrArg Index.pos a]
        · have := hs.1 _ a
          simp only [Index.lt, hsp] at this
          simp at this
          omega
      refine .new heq (ih ⟨?_, fun j hj => h.bound j (by simp [hj]), ?_⟩)
      · intro k s
        unfold bump
        split
        · rename_i h'; rw [h'.1, h'.2]; omega
        · exact h.le k s
      · intro k s p h1 h2
        have h3 : C k s ≤ p := by
          unfold bump at h1
          split at h1
          · rename_i h'; rw [h'.1, h'.2]; omega
          · exact h1
        obtain ⟨a, b⟩ := h.cover k s p h3 h2
        refine ⟨?_, b⟩
        rcases List.mem_cons.1 a with a | a
        · exfalso
          unfold bump at h1
          rw [if_pos] at h1
          · rw [← a] at heq
            simp only [Int.toNat_natCast, b] at heq
            rw [← a, b] at h1
            simp only [Int.toNat_natCast] at h1
            omega
          · rw [← a, b]; simp
        · exact a

theorem consec_sort {κ : Index → Bool} {C C' : Ctr} {l l' : List Index} (hp : l'.Perm l) (hreg : ∀ i ∈ l, 0 ≤ i.space)
    (hsort : l'.Pairwise (fun a b => Index.lt b a = false)) (h : Consec κ C l C') : Consec κ C l' C' := by
  have hc := consec_chars hreg h
  refine chars_consec (fun i hi => hreg i (hp.subset hi)) hsort ⟨hc.le, fun i hi => hc.bound i (hp.subset hi), fun k s p h1 h2 => ?_⟩
  exact ⟨hp.symm.subset (hc.cover k s p h1 h2).1, (hc.cover k s p h1 h2).2⟩

theorem consec_blocks {κ : Index → Bool} {L L' : List Tensor} (h : List.Forall₂ (fun x y : Tensor => y.lower.Perm x.lower ∧ y.upper.Perm x.upper ∧
    y.lower.Pairwise (fun a b => Index.lt b a = false) ∧ y.upper.Pairwise (fun a b => Index.lt b a = false)) L L') :
    ∀ {C C' : Ctr}, (∀ i ∈ L.flatMap (fun x => x.lower ++ x.upper), 0 ≤ i.space) → Consec κ C (L.flatMap (fun x => x.lower ++ x.upper)) C' →
      Consec κ C (L'.flatMap (fun x => x.lower ++ x.upper)) C' := by
  induction h with
  | nil => intro C C' _ h; exact h
  | @cons x y L L' hxy _ ih =>
    intro C C' hreg h
    rw [List.flatMap_cons, consec_append, ] at h
    obtain ⟨D, h1, h2⟩ := h
    rw [consec_append] at h1
    obtain ⟨E, h3, h4⟩ := h1
    rw [List.flatMap_cons, consec_append]
    refine ⟨D, consec_append.2 ⟨E, ?_, ?_⟩, ih (fun i hi => hreg i (by rw [List.flatMap_cons]; exact List.mem_append_right _ hi)) h2⟩
    · exact consec_sort hxy.1 (fun i hi => hreg i (by simp [hi])) hxy.2.2.1 h3
    · exact consec_sort hxy.2.1 (fun i hi => hreg i (by simp [hi])) hxy.2.2.2 h4

/-! ## the names given by the loop are consecutive -/

theorem getD_incr (l : List Int) (n m : Nat) (h : n < l.length) : (l.modify n (fun x => x + 1)).getD m 0 = if m = n then l.getD n 0 + 1 else l.getD m 0 := by
  rw [List.getD_eq_getElem?_getD, List.getD_eq_getElem?_getD, List.getD_eq_getElem?_getD, List.getElem?_modify]
  by_cases hm : n = m
  · subst hm; simp [h]
  · rw [if_neg (fun h => hm h.symm)]
    simp [hm]

theorem relabel_consec {opIdx : List Index} {n : Nat} {tc0 : List Int} {κ : Index → Bool} (l : List Index) : ∀ (st r : Relabel),
    RInv opIdx n tc0 st → l.foldlM (relabelStep opIdx) st = .ok r → (∀ i ∈ l, κ (applyMap r.map i) = decide (i ∈ opIdx)) →
    Consec κ st.ctr (l.map (applyMap r.map)) r.ctr := by
  induction l with
  | nil =>
    intro st r _ h _
    rw [List.foldlM_nil] at h; cases h
    exact .nil _
  | cons i l ih =>
    intro st r hr h hκ
    rw [List.foldlM_cons] at h
    cases h1 : relabelStep opIdx st i with
    | error e => rw [h1] at h; cases h
    | ok st1 =>
      rw [h1] at h
      obtain ⟨a1, a2, a3, a4⟩ := rinv_step hr h1
      obtain ⟨b1, b2, b3, b4⟩ := rinv_fold l st1 r a1 h
      have ih' := ih st1 r a1 h (fun j hj => hκ j (by simp [hj]))
      have hk := hκ i (by simp)
      rw [List.map_cons]
      unfold relabelStep at h1
      cases hf : SMap.find i st.map with
      | some v =>
        rw [hf] at h1; cases h1
        obtain ⟨p, hp, he, rfl⟩ := SMap.find_some_mem hf
        rw [eqv_eq] at he; subst he
        have hv : applyMap r.map p.1 = p.2 := applyMap_mem b1.srt (b2 p hp)
        rw [hv] at hk ⊢
        refine .old ?_ ih'
        have hsp := (hr.space p hp).1
        rw [hk, hsp]
        by_cases ho : p.1 ∈ opIdx
        · have := (hr.op p hp ho).2
          simpa [Relabel.ctr, ho, cnt] using this
        · have := (hr.nop p hp ho).2
          simpa [Relabel.ctr, ho, cnt] using this
      | none =>
        rw [hf] at h1
        dsimp only at h1
        split at h1
        · rename_i ho
          have ho : i ∈ opIdx := by simpa using ho
          cases hinc : incr st.sqopCount i.space with
          | error e => rw [hinc] at h1; cases h1
          | ok c =>
            rw [hinc] at h1; cases h1
            obtain ⟨⟨i1, i2⟩, rfl⟩ := (incr_ok_iff _ _ _).1 hinc
            have hm : (i, (⟨i.space, st.sqopCount.getD i.space.toNat 0⟩ : Index)) ∈ SMap.insert i ⟨i.space, st.sqopCount.getD i.space.toNat 0⟩ st.map := by
              rw [(SMap.insert_perm hr.srt hf).mem_iff]; simp
            have hv := applyMap_mem b1.srt (b2 _ hm)
            rw [hv] at hk ⊢
            refine .new ?_ ?_
            · rw [hk]; simp [Relabel.ctr, ho]
            · rw [hk]
              convert ih' using 1
              funext k s
              simp only [bump, Relabel.ctr, ho, decide_true]
              cases k
              · simp
              · rw [getD_incr _ _ _ i2]
                by_cases hs : s = i.space.toNat
                · simp [hs]
                · simp [hs]
        · rename_i ho
          have ho : i ∉ opIdx := by simpa using ho
          cases hinc : incr st.tensCount i.space with
          | error e => rw [hinc] at h1; cases h1
          | ok c =>
            rw [hinc] at h1; cases h1
            obtain ⟨⟨i1, i2⟩, rfl⟩ := (incr_ok_iff _ _ _).1 hinc
            have hm : (i, (⟨i.space, st.tensCount.getD i.space.toNat 0⟩ : Index)) ∈ SMap.insert i ⟨i.space, st.tensCount.getD i.space.toNat 0⟩ st.map := by
              rw [(SMap.insert_perm hr.srt hf).mem_iff]; simp
            have hv := applyMap_mem b1.srt (b2 _ hm)
            rw [hv] at hk ⊢
            refine .new ?_ ?_
            · rw [hk]; simp [Relabel.ctr, ho]
            · rw [hk]
              convert ih' using 1
              funext k s
              simp only [bump, Relabel.ctr, ho, decide_false]
              cases k
              · rw [getD_incr _ _ _ i2]
                by_cases hs : s = i.space.toNat
                · simp [hs]
                · simp [hs]
              · simp

/-! ## consecutive names are kept -/

structure IdState (opIdx : List Index) (n : Nat) (D : List Index) (st : Relabel) : Prop where
  srt : SMap.Srt st.map
  len1 : st.sqopCount.length = n
  len2 : st.tensCount.length = n
  ident : ∀ p ∈ st.map, p.2 = p.1
  find : ∀ i ∈ D, SMap.find i st.map = if i.pos < st.ctr (decide (i ∈ opIdx)) i.space.toNat then some i else none

theorem relabel_ident {opIdx : List Index} {n : Nat} {D : List Index} (hreg : ∀ i ∈ D, 0 ≤ i.space ∧ i.space.toNat < n) (l : List Index) :
    (∀ i ∈ l, i ∈ D) → ∀ (st : Relabel) {C C' : Ctr}, C = st.ctr → Consec (fun i => decide (i ∈ opIdx)) C l C' → IdState opIdx n D st →
      ∃ r, l.foldlM (relabelStep opIdx) st = .ok r ∧ ∀ p ∈ r.map, p.2 = p.1 := by
  induction l with
  | nil =>
    intro _ st C C' _ _ hst
    exact ⟨st, rfl, hst.ident⟩
  | cons i l ih =>
    intro hl st C C' hC h hst
    have hi := hl i (by simp)
    have hri := hreg i hi
    have hl' : ∀ j ∈ l, j ∈ D := fun j hj => hl j (by simp [hj])
    subst hC
    rw [List.foldlM_cons]
    cases h with
    | old h1 h2 =>
      have hf := hst.find i hi
      rw [if_pos h1] at hf
      have e : relabelStep opIdx st i = .ok st := by
        unfold relabelStep; rw [hf]
      rw [e]
      exact ih hl' st rfl h2 hst
    | new h1 h2 =>
      have hf := hst.find i hi
      rw [if_neg (by omega)] at hf
      have hmem : ∀ v, ∀ p ∈ SMap.insert i v st.map, p = (i, v) ∨ p ∈ st.map := by
        intro v p hp
        rw [(SMap.insert_perm hst.srt hf).mem_iff] at hp
        exact List.mem_cons.1 hp
      by_cases ho : i ∈ opIdx
      · have hinc := (incr_ok_iff st.sqopCount i.space _).2 ⟨⟨hri.1, by rw [hst.len1]; exact hri.2⟩, rfl⟩
        have hv : (⟨i.space, st.sqopCount.getD i.space.toNat 0⟩ : Index) = i := by
          have : i.pos = st.sqopCount.getD i.space.toNat 0 := by simpa [Relabel.ctr, ho] using h1
          rw [← this]
        have e : relabelStep opIdx st i = .ok { st with sqopCount := st.sqopCount.modify i.space.toNat (fun x => x + 1), map := SMap.insert i i st.map } := by
          unfold relabelStep
          rw [hf]
          dsimp only
          rw [if_pos (by simpa using ho), hinc, hv]
          rfl
        rw [e]
        have hctr : bump st.ctr (decide (i ∈ opIdx)) i.space.toNat =
            Relabel.ctr { st with sqopCount := st.sqopCount.modify i.space.toNat (fun x => x + 1), map := SMap.insert i i st.map } := by
          funext k s
          simp only [bump, Relabel.ctr, ho, decide_true]
          cases k
          · simp
          · rw [getD_incr _ _ _ (by rw [hst.len1]; exact hri.2)]
            by_cases hs : s = i.space.toNat
            · simp [hs]
            · simp [hs]
        refine ih hl' _ hctr h2 ⟨SMap.srt_insert hst.srt, by simp [hst.len1], hst.len2, ?_, ?_⟩
        · intro p hp
          rcases hmem _ p hp with rfl | hp
          · rfl
          · exact hst.ident p hp
        · intro j hj
          rw [← hctr, imap_find_insert hst.srt, hst.find j hj]
          unfold bump
          by_cases hij : i = j
          · subst hij
            rw [if_pos rfl, if_pos]
            simp only [and_self, if_true]
            omega
          · rw [if_neg hij]
            by_cases hc : decide (j ∈ opIdx) = decide (i ∈ opIdx) ∧ j.space.toNat = i.space.toNat
            · rw [if_pos hc, hc.1, hc.2]
              have : j.pos ≠ i.pos := by
                intro hp
                apply hij
                have := hreg j hj
                obtain ⟨a, b⟩ := i
                obtain ⟨c, d⟩ := j
                simp only at hp hc this hri
                rw [Index.mk.injEq]
                omega
              by_cases hlt : j.pos < st.ctr (decide (i ∈ opIdx)) i.space.toNat
              · rw [if_pos hlt, if_pos (by omega)]
              · rw [if_neg hlt, if_neg (by omega)]
            · rw [if_neg hc]
      · have hinc := (incr_ok_iff st.tensCount i.space _).2 ⟨⟨hri.1, by rw [hst.len2]; exact hri.2⟩, rfl⟩
        have hv : (⟨i.space, st.tensCount.getD i.space.toNat 0⟩ : Index) = i := by
          have : i.pos = st.tensCount.getD i.space.toNat 0 := by simpa [Relabel.ctr, ho] using h1
          rw [← this]
        have e : relabelStep opIdx st i = .ok { st with tensCount := st.tensCount.modify i.space.toNat (fun x => x + 1), map := SMap.insert i i st.map } := by
          unfold relabelStep
          rw [hf]
          dsimp only
          rw [if_neg (by simpa using ho), hinc, hv]
          rfl
        rw [e]
        have hctr : bump st.ctr (decide (i ∈ opIdx)) i.space.toNat =
            Relabel.ctr { st with tensCount := st.tensCount.modify i.space.toNat (fun x => x + 1), map := SMap.insert i i st.map } := by
          funext k s
          simp only [bump, Relabel.ctr, ho, decide_false]
          cases k
          · rw [getD_incr _ _ _ (by rw [hst.len2]; exact hri.2)]
            by_cases hs : s = i.space.toNat
            · simp [hs]
            · simp [hs]
          · simp
        refine ih hl' _ hctr h2 ⟨SMap.srt_insert hst.srt, hst.len1, by simp [hst.len2], ?_, ?_⟩
        · intro p hp
          rcases hmem _ p hp with rfl | hp
          · rfl
          · exact hst.ident p hp
        · intro j hj
          rw [← hctr, imap_find_insert hst.srt, hst.find j hj]
          unfold bump
          by_cases hij : i = j
          · subst hij
            rw [if_pos rfl, if_pos]
            simp only [and_self, if_true]
            omega
          · rw [if_neg hij]
            by_cases hc : decide (j ∈ opIdx) = decide (i ∈ opIdx) ∧ j.space.toNat = i.space.toNat
            · rw [if_pos hc, hc.1, hc.2]
              have : j.pos ≠ i.pos := by
                intro hp
                apply hij
                have := hreg j hj
                obtain ⟨a, b⟩ := i
                obtain ⟨c, d⟩ := j
                simp only at hp hc this hri
                rw [Index.mk.injEq]
                omega
              by_cases hlt : j.pos < st.ctr (decide (i ∈ opIdx)) i.space.toNat
              · rw [if_pos hlt, if_pos (by omega)]
              · rw [if_neg hlt, if_neg (by omega)]
            · rw [if_neg hc]

end Wicked
