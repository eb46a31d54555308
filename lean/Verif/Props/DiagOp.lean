import Verif.Props.OpMake
import Verif.Model.Print
/-! # C37 (continued): `diag_operator` -/
namespace Wicked
open CppLt Rational OpExpr

theorem diag_cre (o : OSI) (l : List Char) : ∀ c a : List Int,
    (l.map (fun x => (x, true))).foldlM (fun (st : List Int × List Int) (e : Char × Bool) => do
        let s ← o.labelToSpace e.1
        if e.2 then do let c ← bump st.1 s; return (c, st.2)
        else do let a ← bump st.2 s; return (st.1, a)) (c, a) =
      (do let c' ← l.foldlM (fun v x => do let s ← o.labelToSpace x; bump v s) c; return (c', a) : Res (List Int × List Int)) := by
  induction l with
  | nil => intro c a; rfl
  | cons x l ih =>
    intro c a
    simp only [List.map_cons, List.foldlM_cons, if_true]
    cases o.labelToSpace x with
    | error e => rfl
    | ok s =>
      simp only [bind, Except.bind]
      cases bump c s with
      | error e => rfl
      | ok c' => exact ih c' a

theorem diag_ann (o : OSI) (l : List Char) : ∀ c a : List Int,
    (l.map (fun x => (x, false))).foldlM (fun (st : List Int × List Int) (e : Char × Bool) => do
        let s ← o.labelToSpace e.1
        if e.2 then do let c ← bump st.1 s; return (c, st.2)
        else do let a ← bump st.2 s; return (st.1, a)) (c, a) =
      (do let a' ← l.foldlM (fun v x => do let s ← o.labelToSpace x; bump v s) a; return (c, a') : Res (List Int × List Int)) := by
  induction l with
  | nil => intro c a; rfl
  | cons x l ih =>
    intro c a
    simp only [List.map_cons, List.foldlM_cons, if_false, Bool.false_eq_true]
    cases o.labelToSpace x with
    | error e => rfl
    | ok s =>
      simp only [bind, Except.bind]
      cases bump a s with
      | error e => rfl
      | ok c' => exact ih c c'

theorem diag_countOps (o : OSI) (cre ann : List Char) :
    countOps o (cre.map (fun x => (x, true)) ++ ann.map (fun x => (x, false))) =
      (do let c ← countLabels o cre; let a ← countLabels o ann; return (c, a)) := by
  unfold countOps countLabels
  rw [List.foldlM_append, diag_cre]
  cases cre.foldlM (fun v x => do let s ← o.labelToSpace x; bump v s) (List.replicate o.spaces.length 0) with
  | error e => rfl
  | ok c => exact diag_ann o ann c _

/-- **C37** (`diag_operator`): with labels of registered spaces, `diag_operator(label, cre, ann)` returns the operator with the given numbers of creation and annihilation
operators in each space, the operator that `op` builds from the same letters. -/
theorem C37_diag_operator {o : OSI} (h8 : o.spaces.length ≤ 8) (label : Str) (cre ann : List Char)
    (hr : ∀ x ∈ cre ++ ann, ∃ s : Nat, s < o.spaces.length ∧ o.labelToSpace x = .ok (s : Int)) :
    ∃ p, makeDiagOperator o label cre ann = .ok p ∧ p.label = label ∧
      (∀ s : Nat, s < o.spaces.length →
        p.gm.cre s = (cre.filter (fun x => decide (o.labelToSpace x = .ok (s : Int)))).length ∧
        p.gm.ann s = (ann.filter (fun x => decide (o.labelToSpace x = .ok (s : Int)))).length) ∧
      ∀ text, findOps text = cre.map (fun x => (x, true)) ++ ann.map (fun x => (x, false)) →
        ∀ unique, OpExpr.make o label [text] unique = .ok [([p], Rational.mk2 1 1)] := by
  have hreg : Component.Registered o (cre.map (fun x => (x, true)) ++ ann.map (fun x => (x, false))) := by
    intro x hx
    rcases List.mem_append.mp hx with h | h
    · obtain ⟨y, hy, rfl⟩ := List.mem_map.mp h
      exact hr y (by simp [hy])
    · obtain ⟨y, hy, rfl⟩ := List.mem_map.mp h
      exact hr y (by simp [hy])
  obtain ⟨ca, h1, h2⟩ := countOps_mk2 hreg h8 label
  rw [diag_countOps] at h1
  have hp : makeDiagOperator o label cre ann = .ok (Component.operator o label (cre.map (fun x => (x, true)) ++ ann.map (fun x => (x, false)))) := by
    unfold makeDiagOperator
    cases hc : countLabels o cre with
    | error e => rw [hc] at h1; cases h1
    | ok c =>
      cases ha : countLabels o ann with
      | error e => rw [hc, ha] at h1; cases h1
      | ok a =>
        rw [hc, ha] at h1
        have : ca = (c, a) := (Except.ok.inj h1).symm
        subst this
        simp only [bind, Except.bind]
        rw [h2]; rfl
  refine ⟨_, hp, rfl, ?_, ?_⟩
  · intro s hs
    have e1 : ∀ b : Bool, Component.count o (cre.map (fun x => (x, true)) ++ ann.map (fun x => (x, false))) b s =
        (((if b then cre else ann).filter (fun x => decide (o.labelToSpace x = .ok (s : Int)))).length : Int) := by
      intro b
      unfold Component.count
      rw [List.filter_append, List.filter_map, List.filter_map]
      cases b <;> simp [Function.comp_def]
    unfold Component.operator
    unfold GraphMatrix.cre GraphMatrix.ann
    rw [gm_get_tab, if_pos (by omega)]
    exact ⟨e1 true, e1 false⟩
  · intro text ht unique
    have hm := make_loop h8 label unique [text] (by
      intro c hc
      simp only [List.mem_singleton] at hc
      subst hc
      rw [ht]
      exact hreg) []
    unfold OpExpr.make
    rw [hm, List.foldl_cons, List.foldl_nil, ht]
    cases unique <;> rfl

/-- **C37** (`diag_operator`, errors): a label that is not registered raises an exception. -/
theorem C37_diag_operator_unregistered {o : OSI} (label : Str) (cre ann : List Char)
    (hr : ∀ x ∈ cre ++ ann, ∀ s : Int, o.labelToSpace x = .ok s → 0 ≤ s ∧ s.toNat < o.spaces.length)
    (hu : ∃ x ∈ cre ++ ann, ∀ s, o.labelToSpace x ≠ .ok s) : makeDiagOperator o label cre ann = .error .throw := by
  have loop : ∀ (l : List Char) (v : List Int), v.length = o.spaces.length →
      (∀ x ∈ l, ∀ s : Int, o.labelToSpace x = .ok s → 0 ≤ s ∧ s.toNat < o.spaces.length) →
      ((∃ x ∈ l, ∀ s, o.labelToSpace x ≠ .ok s) ∧ l.foldlM (fun v x => do let s ← o.labelToSpace x; bump v s) v = .error .throw) ∨
      ((¬ ∃ x ∈ l, ∀ s, o.labelToSpace x ≠ .ok s) ∧ ∃ w, l.foldlM (fun v x => do let s ← o.labelToSpace x; bump v s) v = .ok w) := by
    intro l
    induction l with
    | nil => intro v _ _; exact Or.inr ⟨by simp, v, rfl⟩
    | cons x l ih =>
      intro v hv hr
      rw [List.foldlM_cons]
      cases hx : o.labelToSpace x with
      | error e =>
        left
        have : e = .throw := by
          unfold OSI.labelToSpace at hx
          split at hx
          · cases hx
          · exact (Except.error.inj hx).symm
        subst this
        exact ⟨⟨x, by simp, by rw [hx]; simp⟩, rfl⟩
      | ok s =>
        obtain ⟨h1, h2⟩ := hr x (by simp) s hx
        have hb : bump v s = .ok (v.modify s.toNat (· + 1)) := by unfold bump; rw [if_pos ⟨h1, by omega⟩]
        simp only [bind, Except.bind, hb]
        rcases ih (v.modify s.toNat (· + 1)) (by simpa using hv) (fun y hy => hr y (by simp [hy])) with ⟨⟨y, hy, hy'⟩, h⟩ | ⟨h, w, hw⟩
        · exact Or.inl ⟨⟨y, by simp [hy], hy'⟩, h⟩
        · refine Or.inr ⟨?_, w, hw⟩
          rintro ⟨y, hy, hy'⟩
          rcases List.mem_cons.mp hy with rfl | hy
          · exact hy' s hx
          · exact h ⟨y, hy, hy'⟩
  unfold makeDiagOperator countLabels
  rcases loop cre (List.replicate o.spaces.length 0) (by simp) (fun x hx => hr x (by simp [hx])) with ⟨_, h⟩ | ⟨h, w, hw⟩
  · rw [h]; rfl
  · rcases loop ann (List.replicate o.spaces.length 0) (by simp) (fun x hx => hr x (by simp [hx])) with ⟨_, h'⟩ | ⟨h', _, _⟩
    · rw [hw, h']; rfl
    · exfalso
      obtain ⟨x, hx, hx'⟩ := hu
      rcases List.mem_append.mp hx with hx | hx
      · exact h ⟨x, hx, hx'⟩
      · exact h' ⟨x, hx, hx'⟩

-- the hypotheses hold for the doubles operator of the registry with `o` and `v`; the letter `z` is not registered
example : (∀ x ∈ ['v', 'v'] ++ ['o', 'o'], ∃ s : Nat, s < exReg.spaces.length ∧ exReg.labelToSpace x = .ok (s : Int)) ∧
    (makeDiagOperator exReg "t".toList ['v', 'v'] ['o', 'o'] = .ok (mkOp "t" [(0, 2), (2, 0)])) ∧
    makeDiagOperator exReg "t".toList ['v', 'z'] ['o'] = .error .throw := by
  refine ⟨?_, by decide +kernel, by decide +kernel⟩
  intro x hx
  simp only [List.mem_append, List.mem_cons, List.not_mem_nil, or_false] at hx
  rcases hx with (rfl | rfl) | (rfl | rfl)
  · exact ⟨1, by decide +kernel, by decide +kernel⟩
  · exact ⟨1, by decide +kernel, by decide +kernel⟩
  · exact ⟨0, by decide +kernel, by decide +kernel⟩
  · exact ⟨0, by decide +kernel, by decide +kernel⟩

end Wicked
