import Verif.Props.ProgramRuns
import Verif.Props.SpinResidual
import Verif.Proofs.FockSpace
/-! # Lemmas for C96: the operators of the coupled-cluster notebooks -/
namespace Wicked
open CppLt CppEq Rational Lin GenOp OpExpr

/-! ## `w.op("T", ["v+ o", "v+ v+ o o", ...])` and `gen_op` -/

theorem opExpr_eq {X Y : OpExpr} (hX : WF X) (hY : WF Y) (h : ∀ k, Lin.coef X k = Lin.coef Y k) : X = Y := by
  have key : ∀ {X Y : OpExpr}, (∀ p ∈ X, Canon p.2) → (∀ p ∈ Y, Canon p.2) → isEqual X Y = true → X = Y := by
    intro X
    induction X with
    | nil =>
      intro Y _ _ h
      cases Y with
      | nil => rfl
      | cons q Y => cases h
    | cons p X ih =>
      intro Y h1 h2 h
      cases Y with
      | nil => cases h
      | cons q Y =>
        have hc' : (CppEq.eq p q && listEq X Y) = true := h
        rw [Bool.and_eq_true] at hc'
        have e1 : (CppEq.eq p.1 q.1 && CppEq.eq p.2 q.2) = true := hc'.1
        rw [Bool.and_eq_true] at e1
        have he := eqv_eq.1 (cppEq_iff.1 e1.1)
        have hv : toRat p.2 = toRat q.2 := (eq_toRat (h1 p (by simp)) (h2 q (by simp))).1 e1.2
        have : p = q := Prod.ext he (toRat_inj (h1 p (by simp)) (h2 q (by simp)) hv)
        rw [this, ih (fun r hr => h1 r (by simp [hr])) (fun r hr => h2 r (by simp [hr])) hc'.2]
  exact key (fun p hp => hX.canon p hp) (fun p hp => hY.canon p hp) (eq_of_coef hX hY h)

/-- the component `"v+ v+ o o"` -/
def excitation (n : Nat) : Component := List.replicate n ('v', true) ++ List.replicate n ('o', false)

theorem intercalate_text (t : Component) : List.intercalate [' '] (t.map (fun x => tokenText x '+')) = Component.text ' ' '+' t := by
  induction t with
  | nil => rfl
  | cons x t ih =>
    cases t with
    | nil => simp [Component.text]
    | cons y t =>
      rw [List.map_cons, List.map_cons, List.intercalate_cons_cons, ← List.map_cons (f := fun x => tokenText x '+'), ih, Component.text]
      simp

theorem excitationText_reads (n : Nat) : findOps (excitationText n) = excitation n := by
  have : excitationText n = Component.text ' ' '+' (excitation n) := by
    rw [← intercalate_text, excitation, List.map_append, List.map_replicate, List.map_replicate]
    rfl
  rw [this]
  refine C37_op_reads ' ' '+' (by decide) (by decide) (by decide) _ ?_
  intro x hx
  rcases List.mem_append.1 hx with hx | hx <;> rw [(List.mem_replicate.1 hx).2] <;> decide

theorem joinSp_intercalate (l : List Str) : joinSp l = List.intercalate [' '] l := by
  induction l with
  | nil => rfl
  | cons a l ih =>
    cases l with
    | nil => simp [joinSp]
    | cons b l => rw [joinSp, ih, List.intercalate_cons_cons]; simp

theorem intercalate_append {a b : List Str} (ha : a ≠ []) (hb : b ≠ []) : List.intercalate [' '] (a ++ b) = List.intercalate [' '] a ++ [' '] ++ List.intercalate [' '] b := by
  induction a with
  | nil => exact absurd rfl ha
  | cons x a ih =>
    cases a with
    | nil =>
      obtain ⟨y, b, rfl⟩ := List.exists_cons_of_ne_nil hb
      rw [List.singleton_append, List.intercalate_cons_cons]
      simp
    | cons y a =>
      rw [List.cons_append, List.cons_append, List.intercalate_cons_cons, ← List.cons_append, ih (by simp), List.intercalate_cons_cons]
      simp

theorem component_excitation {n : Nat} (hn : 1 ≤ n) : component (List.replicate n 'v') (List.replicate n 'o') = excitationText n := by
  unfold component excitationText
  rw [joinSp_intercalate, joinSp_intercalate, List.map_replicate, List.map_replicate, intercalate_append (by simp; omega) (by simp; omega)]

theorem tuples_single (c : Char) (n : Nat) : tuples [c] n = [List.replicate n c] := by
  induction n with
  | zero => rfl
  | succ n ih => rw [tuples, List.flatMap_cons, List.flatMap_nil, ih]; rfl

section
variable {o : OSI}

theorem sorted_single (hR : GoodReg o) {c : Char} (hc : c ∈ o.spaces.map (·.label)) (n : Nat) : sortedUp o (List.replicate n c) = .ok true ∧ sortedDown o (List.replicate n c) = .ok true := by
  induction n with
  | zero => exact ⟨rfl, rfl⟩
  | succ n ih =>
    cases n with
    | zero => exact ⟨rfl, rfl⟩
    | succ n =>
      simp only [List.replicate_succ] at ih ⊢
      simp only [sortedUp, sortedDown, lookup_spec hR hc, bind, Except.bind, le_refl, if_true]
      exact ih

/-- one component: `gen_op("T", n, "v", "o")` is `op("T", ["v+ ... v+ o ... o"])` -/
theorem genOp_excitation (hR : GoodReg o) (hv : 'v' ∈ o.spaces.map (·.label)) (ho : 'o' ∈ o.spaces.map (·.label)) {n : Nat} (hn : 1 ≤ n) (label : Str) :
    genOp o label n ['v'] ['o'] true = OpExpr.make o label [excitationText n] false := by
  have ht : terms o n ['v'] ['o'] true = .ok [excitationText n] := by
    unfold terms
    rw [tuples_single, tuples_single]
    simp only [List.foldlM_cons, List.foldlM_nil, (sorted_single hR hv n).1, (sorted_single hR ho n).2, bind, Except.bind, if_true, pure, Except.pure, component_excitation hn]
    rfl
  unfold genOp
  rw [Int.toNat_natCast, ht]
  rfl

/-- the program for the cluster operator -/
def clusterProg : Nat → List Nat → GenProg (Fin 3)
  | r, [] => .gen ['T'] r 2 1
  | r, r' :: rs => .plus (.gen ['T'] r 2 1) (clusterProg r' rs)

theorem excitation_registered (hR : GoodReg o) (hv : 'v' ∈ o.spaces.map (·.label)) (ho : 'o' ∈ o.spaces.map (·.label)) (n : Nat) : Component.Registered o (findOps (excitationText n)) := by
  rw [excitationText_reads]
  intro x hx
  rcases List.mem_append.1 hx with hx | hx <;> rw [(List.mem_replicate.1 hx).2]
  · exact ⟨_, (spOf_spec hR hv).2.1, (spOf_spec hR hv).1⟩
  · exact ⟨_, (spOf_spec hR ho).2.1, (spOf_spec hR ho).1⟩

theorem excitation_inj (hR : GoodReg o) (h8 : o.spaces.length ≤ 8) (hv : 'v' ∈ o.spaces.map (·.label)) {n m : Nat} {label : Str}
    (h : Component.operator o label (findOps (excitationText n)) = Component.operator o label (findOps (excitationText m))) : n = m := by
  have key : ∀ n, ((Component.operator o label (findOps (excitationText n))).gm.cre (spOf o 'v') : Int) = n := by
    intro n
    have hlt := (spOf_spec hR hv).2.1
    rw [excitationText_reads]
    show (GraphMatrix.tab _).cre _ = _
    rw [GraphMatrix.cre, gm_get_tab, if_pos (by omega)]
    unfold Component.count excitation
    rw [List.filter_append, List.filter_replicate, List.filter_replicate]
    simp [(spOf_spec hR hv).1]
  have h1 := key n
  rw [h, key m] at h1
  exact_mod_cast h1.symm

theorem make_cluster (hist : List RegOp) (hok : allOk OSI.empty hist) (h8 : (runReg OSI.empty hist).spaces.length ≤ 8) (hv : 'v' ∈ (runReg OSI.empty hist).spaces.map (·.label))
    (ho : 'o' ∈ (runReg OSI.empty hist).spaces.map (·.label)) (r : Nat) (rs : List Nat) (hn : (r :: rs).Nodup) (h1 : ∀ n ∈ r :: rs, 1 ≤ n) (unique : Bool) :
    OpExpr.make (runReg OSI.empty hist) ['T'] ((r :: rs).map excitationText) unique = (clusterProg r rs).run (runReg OSI.empty hist) letters2 := by
  have hR := goodReg hist hok
  revert h8 hv ho hR
  generalize runReg OSI.empty hist = o
  intro h8 hv ho hR
  have hrun : ∀ (rs : List Nat) (r : Nat), (∀ n ∈ r :: rs, 1 ≤ n) → ∃ E, (clusterProg r rs).run o letters2 = .ok E ∧ WF E ∧
      ∀ k, Lin.coef E k = (((r :: rs).map excitationText).filter (fun c => decide (k = [Component.operator o ['T'] (findOps c)]))).length := by
    intro rs
    induction rs with
    | nil =>
      intro r h1
      obtain ⟨E, hE, hwf, hc⟩ := (C37_op_counts h8 ['T'] [excitationText r] (by intro c hc; rw [List.mem_singleton.1 hc]; exact excitation_registered hR hv ho r)).1
      refine ⟨E, ?_, hwf, hc⟩
      show genOp o ['T'] r (letters2 2) (letters2 1) true = _
      exact (genOp_excitation hR hv ho (h1 r (by simp)) ['T']).trans hE
    | cons r' rs ih =>
      intro r h1
      obtain ⟨E, hE, hwf, hc⟩ := (C37_op_counts h8 ['T'] [excitationText r] (by intro c hc; rw [List.mem_singleton.1 hc]; exact excitation_registered hR hv ho r)).1
      obtain ⟨F, hF, hwf', hc'⟩ := ih r' (fun n hn => h1 n (by simp [hn]))
      obtain ⟨_, p2, p3⟩ := Lin.plus_spec hwf.toOk hwf'.toOk
      refine ⟨OpExpr.plus E F, ?_, p2 hwf, fun k => ?_⟩
      · rw [clusterProg, GenProg.run]
        have : (GenProg.gen ['T'] r 2 1 : GenProg (Fin 3)).run o letters2 = .ok E := (genOp_excitation hR hv ho (h1 r (by simp)) ['T']).trans hE
        rw [this, hF]
        rfl
      · show Lin.coef (Lin.plus E F) k = _
        rw [p3, hc, hc', List.map_cons (a := r), List.filter_cons, List.filter_cons]
        split
        · simp; ring
        · simp
  obtain ⟨E, hE, hwf, hc⟩ := hrun rs r h1
  rw [hE]
  have hreg : ∀ c ∈ (r :: rs).map excitationText, Component.Registered o (findOps c) := by
    intro c hc
    obtain ⟨n, _, rfl⟩ := List.mem_map.1 hc
    exact excitation_registered hR hv ho n
  obtain ⟨⟨F, hF, hwf', hc'⟩, ⟨G, hG, hwf'', hc''⟩⟩ := C37_op_counts h8 ['T'] ((r :: rs).map excitationText) hreg
  cases unique with
  | false =>
    rw [hF, opExpr_eq hwf' hwf (fun k => by rw [hc, hc'])]
  | true =>
    rw [hG, opExpr_eq hwf'' hwf (fun k => ?_)]
    rw [hc, hc'']
    generalize r :: rs = l at hn
    clear hc hc' hc'' hreg hF hG hE hrun
    induction l with
    | nil => simp
    | cons n l ih =>
      rw [List.nodup_cons] at hn
      have := ih hn.2
      rw [List.map_cons, List.filter_cons]
      by_cases hk : k = [Component.operator o ['T'] (findOps (excitationText n))]
      · rw [if_pos ⟨_, by simp, hk⟩, if_pos (by simpa using hk)]
        have h0 : (l.map excitationText).filter (fun c => decide (k = [Component.operator o ['T'] (findOps c)])) = [] := by
          rw [List.filter_eq_nil_iff]
          intro c hc h
          obtain ⟨m, hm, rfl⟩ := List.mem_map.1 hc
          have h := of_decide_eq_true h
          rw [hk] at h
          have := excitation_inj hR h8 hv (List.cons.inj h).1
          exact hn.1 (this ▸ hm)
        rw [h0]; simp
      · rw [decide_eq_false hk, if_neg (c := false = true) (by decide), ← this]
        simp [hk]
end
end Wicked
