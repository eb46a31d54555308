import Verif.Spec.CCEquations
import Verif.Props.Notebook
/-! # Lemmas for C101: the operators of CoupledClusterEquations.ipynb -/
namespace Wicked
open CppLt CppEq Rational Lin GenOp OpExpr

/-- the program for the cluster operator with the tensor `lab` -/
def clusterProgL (lab : Str) : Nat → List Nat → GenProg (Fin 3)
  | r, [] => .gen lab r 2 1
  | r, r' :: rs => .plus (.gen lab r 2 1) (clusterProgL lab r' rs)

theorem make_clusterL (lab : Str) (hist : List RegOp) (hok : allOk OSI.empty hist) (h8 : (runReg OSI.empty hist).spaces.length ≤ 8) (hv : 'v' ∈ (runReg OSI.empty hist).spaces.map (·.label))
    (ho : 'o' ∈ (runReg OSI.empty hist).spaces.map (·.label)) (r : Nat) (rs : List Nat) (hn : (r :: rs).Nodup) (h1 : ∀ n ∈ r :: rs, 1 ≤ n) (unique : Bool) :
    OpExpr.make (runReg OSI.empty hist) lab ((r :: rs).map excitationText) unique = (clusterProgL lab r rs).run (runReg OSI.empty hist) letters2 := by
  have hR := goodReg hist hok
  revert h8 hv ho hR
  generalize runReg OSI.empty hist = o
  intro h8 hv ho hR
  have hrun : ∀ (rs : List Nat) (r : Nat), (∀ n ∈ r :: rs, 1 ≤ n) → ∃ E, (clusterProgL lab r rs).run o letters2 = .ok E ∧ WF E ∧
      ∀ k, Lin.coef E k = (((r :: rs).map excitationText).filter (fun c => decide (k = [Component.operator o lab (findOps c)]))).length := by
    intro rs
    induction rs with
    | nil =>
      intro r h1
      obtain ⟨E, hE, hwf, hc⟩ := (C37_op_counts h8 lab [excitationText r] (by intro c hc; rw [List.mem_singleton.1 hc]; exact excitation_registered hR hv ho r)).1
      refine ⟨E, ?_, hwf, hc⟩
      show genOp o lab r (letters2 2) (letters2 1) true = _
      exact (genOp_excitation hR hv ho (h1 r (by simp)) lab).trans hE
    | cons r' rs ih =>
      intro r h1
      obtain ⟨E, hE, hwf, hc⟩ := (C37_op_counts h8 lab [excitationText r] (by intro c hc; rw [List.mem_singleton.1 hc]; exact excitation_registered hR hv ho r)).1
      obtain ⟨F, hF, hwf', hc'⟩ := ih r' (fun n hn => h1 n (by simp [hn]))
      obtain ⟨_, p2, p3⟩ := Lin.plus_spec hwf.toOk hwf'.toOk
      refine ⟨OpExpr.plus E F, ?_, p2 hwf, fun k => ?_⟩
      · rw [clusterProgL, GenProg.run]
        have : (GenProg.gen lab r 2 1 : GenProg (Fin 3)).run o letters2 = .ok E := (genOp_excitation hR hv ho (h1 r (by simp)) lab).trans hE
        rw [this, hF]
        rfl
      · show Lin.coef (Lin.plus E F) k = _
        rw [p3, hc, hc', List.map_cons (a := r), List.filter_cons, List.filter_cons]
        split
        · simp; ring
        · simp
  obtain ⟨E, hE, hwf, hc⟩ := hrun rs r h1
  rw [hE]
  have hreg : ∀ c ∈ (r :: rs).map excitationText, Component.Registered o (findOps c) := by
    intro c hc
    obtain ⟨n, _, rfl⟩ := List.mem_map.1 hc
    exact excitation_registered hR hv ho n
  obtain ⟨⟨F, hF, hwf', hc'⟩, ⟨G, hG, hwf'', hc''⟩⟩ := C37_op_counts h8 lab ((r :: rs).map excitationText) hreg
  cases unique with
  | false =>
    rw [hF, opExpr_eq hwf' hwf (fun k => by rw [hc, hc'])]
  | true =>
    rw [hG, opExpr_eq hwf'' hwf (fun k => ?_)]
    rw [hc, hc'']
    generalize r :: rs = l at hn
    clear hc hc' hc'' hreg hF hG hE hrun
    induction l with
    | nil => simp
    | cons n l ih =>
      rw [List.nodup_cons] at hn
      have := ih hn.2
      rw [List.map_cons, List.filter_cons]
      by_cases hk : k = [Component.operator o lab (findOps (excitationText n))]
      · rw [if_pos ⟨_, by simp, hk⟩, if_pos (by simpa using hk)]
        have h0 : (l.map excitationText).filter (fun c => decide (k = [Component.operator o lab (findOps c)])) = [] := by
          rw [List.filter_eq_nil_iff]
          intro c hc h
          obtain ⟨m, hm, rfl⟩ := List.mem_map.1 hc
          have h := of_decide_eq_true h
          rw [hk] at h
          have := excitation_inj hR h8 hv (List.cons.inj h).1
          exact hn.1 (this ▸ hm)
        rw [h0]; simp
      · rw [decide_eq_false hk, if_neg (c := false = true) (by decide), ← this]
        simp [hk]

theorem findOps_os (n : Nat) : findOps (' ' :: List.replicate n 'o') = List.replicate n ('o', false) := by
  have h : ∀ n, findOps (List.replicate n 'o') = List.replicate n ('o', false) := by
    intro n
    induction n with
    | zero => simp [findOps]
    | succ n ih =>
      cases n with
      | zero => simp [findOps, isAlpha]
      | succ n =>
        rw [List.replicate_succ, List.replicate_succ, findOps, if_pos (by decide), if_neg (by decide), ← List.replicate_succ, ih]
        rfl
  cases n with
  | zero => simp [findOps, isAlpha]
  | succ n => rw [List.replicate_succ, findOps, if_neg (by decide), ← List.replicate_succ, h]

theorem makeTText_reads (n : Nat) : findOps (makeTText n) = findOps (excitationText n) := by
  rw [excitationText_reads, makeTText, excitation]
  suffices h : ∀ k, findOps ((List.replicate k ['v', '+']).flatten ++ ' ' :: List.replicate n 'o') = List.replicate k ('v', true) ++ List.replicate n ('o', false) from h n
  intro k
  induction k with
  | zero => exact findOps_os n
  | succ k ih =>
    rw [List.replicate_succ, List.flatten_cons, List.replicate_succ]
    show findOps ('v' :: '+' :: ((List.replicate k ['v', '+']).flatten ++ ' ' :: List.replicate n 'o')) = ('v', true) :: (List.replicate k ('v', true) ++ List.replicate n ('o', false))
    rw [findOps, if_pos (by decide), if_pos (by decide), ih]

theorem make_congr (o : OSI) (label : Str) (unique : Bool) {α : Type} (f g : α → Str) (h : ∀ a, findOps (f a) = findOps (g a)) (l : List α) :
    OpExpr.make o label (l.map f) unique = OpExpr.make o label (l.map g) unique := by
  unfold OpExpr.make
  rw [List.foldlM_map, List.foldlM_map]
  simp only [h]

theorem cluster_factsL (lab : Str) {o : OSI} (ho : o.spaces.map (fun s => (s.label, s.spaceType)) = [('o', .occupied), ('v', .unoccupied)]) (rs : List Nat) : ∀ r : Nat, (∀ n ∈ r :: rs, 1 ≤ n ∧ n ≤ 6) →
    (clusterProgL lab r rs).NonZero ∧ (clusterProgL lab r rs).Excites o letters2 ∧ (∀ l ∈ (clusterProgL lab r rs).labels, l = lab) ∧ (clusterProgL lab r rs).numOps ≤ 12 ∧ (clusterProgL lab r rs).perSpace letters2 ≤ 6 := by
  have hmem : ∀ s ∈ o.spaces, (s.label = 'o' → s.spaceType = .occupied) ∧ (s.label = 'v' → s.spaceType = .unoccupied) := by
    intro s hs
    have := List.mem_map_of_mem (f := fun s : OrbitalSpace => (s.label, s.spaceType)) hs
    rw [ho] at this
    simp only [List.mem_cons, Prod.mk.injEq, List.not_mem_nil, or_false] at this
    rcases this with ⟨h1, h2⟩ | ⟨h1, h2⟩ <;> rw [h1, h2] <;> simp
  have hone : ∀ r : Nat, 1 ≤ r → r ≤ 6 → (GenProg.gen lab r 2 1 : GenProg (Fin 3)).Excites o letters2 ∧ (GenProg.gen lab r 2 1 : GenProg (Fin 3)).perSpace letters2 ≤ 6 := by
    intro r h1 h6
    refine ⟨⟨h1, ?_, ?_⟩, ?_⟩
    · intro c hc s hs hl
      have : c = 'v' := List.mem_singleton.1 hc
      exact (hmem s hs).2 (hl.trans this)
    · intro c hc s hs hl
      have : c = 'o' := List.mem_singleton.1 hc
      exact (hmem s hs).1 (hl.trans this)
    · rw [GenProg.perSpace, if_pos (by decide)]; exact h6
  induction rs with
  | nil =>
    intro r h
    have h := h r (by simp)
    refine ⟨trivial, (hone r h.1 h.2).1, ?_, ?_, (hone r h.1 h.2).2⟩
    · intro l hl; exact List.mem_singleton.1 hl
    · show 2 * r ≤ 12; omega
  | cons r' rs ih =>
    intro r h
    have hr := h r (by simp)
    obtain ⟨h1, h2, h3, h4, h5⟩ := ih r' (fun n hn => h n (by simp [hn]))
    refine ⟨⟨trivial, h1⟩, ⟨(hone r hr.1 hr.2).1, h2⟩, ?_, ?_, ?_⟩
    · intro l hl
      rcases List.mem_cons.1 hl with hl | hl
      · exact hl
      · exact h3 l hl
    · show max (2 * r) _ ≤ 12; omega
    · exact max_le (hone r hr.1 hr.2).2 h5


theorem cluster_meaningL {Ω R : Type} [Inhabited Ω] [Fintype Ω] [LinearOrder Ω] [CommRing R] [Algebra ℚ R] (lab : Str) {B : Type} [Ring B] [Algebra R B] [Algebra ℚ B] (T : Str → List Ω → List Ω → R) (N : List (SQType × Ω) → B) (S : Fin 3 → Finset Ω) (rs : List Nat) : ∀ r : Nat,
    (clusterProgL lab r rs).meaning T N S = ((r :: rs).map (fun n => manyBody (T lab) N n (S 2) (S 1))).sum := by
  induction rs with
  | nil => intro r; simp [clusterProgL, GenProg.meaning]
  | cons r' rs ih => intro r; rw [clusterProgL, GenProg.meaning, ih r', GenProg.meaning, List.map_cons (a := r), List.sum_cons]
end Wicked
