import Verif.Spec.Notebook
import Verif.Props.GenOpValue
import Verif.Props.TermSize
/-! # C93: programs built from `gen_op` run to the end -/
namespace Wicked
open CppLt CppEq Rational Lin GenOp

section
variable {α : Type}

/-- the bound of an additive weight of the products -/
def GenProg.weight (b : Nat → α → α → Nat) : GenProg α → Nat
  | .gen _ rank cre ann => b rank cre ann
  | .plus x y | .minus x y => max (x.weight b) (y.weight b)
  | .scale _ _ x => x.weight b
  | .mul x y | .comm x y => x.weight b + y.weight b
  | .bch x y n => x.weight b + n * y.weight b

theorem GenProg.perSpace_eq (letters : α → Str) (P : GenProg α) : P.perSpace letters = P.weight (fun rank cre ann => if ∀ c ∈ letters cre, c ∉ letters ann then rank else 2 * rank) := by
  induction P with
  | gen label rank cre ann => rfl
  | plus a b iha ihb => simp only [GenProg.perSpace, GenProg.weight, iha, ihb]
  | minus a b iha ihb => simp only [GenProg.perSpace, GenProg.weight, iha, ihb]
  | scale n d a iha => simp only [GenProg.perSpace, GenProg.weight, iha]
  | mul a b iha ihb => simp only [GenProg.perSpace, GenProg.weight, iha, ihb]
  | comm a b iha ihb => simp only [GenProg.perSpace, GenProg.weight, iha, ihb]
  | bch a b n iha ihb => simp only [GenProg.perSpace, GenProg.weight, iha, ihb]

theorem GenProg.numOps_eq (P : GenProg α) : P.numOps = P.weight (fun rank _ _ => 2 * rank) := by
  induction P with
  | gen label rank cre ann => rfl
  | plus a b iha ihb => simp only [GenProg.numOps, GenProg.weight, iha, ihb]
  | minus a b iha ihb => simp only [GenProg.numOps, GenProg.weight, iha, ihb]
  | scale n d a iha => simp only [GenProg.numOps, GenProg.weight, iha]
  | mul a b iha ihb => simp only [GenProg.numOps, GenProg.weight, iha, ihb]
  | comm a b iha ihb => simp only [GenProg.numOps, GenProg.weight, iha, ihb]
  | bch a b n iha ihb => simp only [GenProg.numOps, GenProg.weight, iha, ihb]

theorem mem_bchLoop_weight {W : OperatorProduct → Int} (hW : ∀ u w, W (u ++ w) = W u + W w) {n m : Nat} {T : OpExpr} (hT : ∀ q ∈ T, W q.1 ≤ m) : ∀ (k i j : Nat) (A C : OpExpr),
    (∀ p ∈ A, W p.1 ≤ ((n + (j + k) * m : Nat) : Int)) → (∀ p ∈ C, W p.1 ≤ ((n + j * m : Nat) : Int)) →
    ∀ r ∈ OpExpr.bchLoop T i k A C, W r.1 ≤ ((n + (j + k) * m : Nat) : Int) := by
  intro k
  induction k with
  | zero => intro i j A C hA _; exact hA
  | succ k ih =>
    intro i j A C hA hC
    have hc : ∀ r ∈ Lin.smul (OpExpr.commutator C T) (Rational.mk2 1 ((i + 1 : Nat) : Int)), W r.1 ≤ ((n + (j + 1) * m : Nat) : Int) := by
      intro r hr
      obtain ⟨s, hs, rfl⟩ := List.mem_map.1 hr
      refine Wick.mem_commutator (Q := fun w => W w ≤ ((n + (j + 1) * m : Nat) : Int)) (fun p hp q hq => ?_) s hs
      have h1 := hC p hp
      have h2 := hT q hq
      have h3 : n + (j + 1) * m = n + j * m + m := by ring
      refine ⟨?_, ?_⟩
      · rw [hW, h3, Nat.cast_add]; omega
      · rw [hW, h3, Nat.cast_add]; omega
    have he : j + (k + 1) = (j + 1) + k := by omega
    rw [he]
    refine ih (i + 1) (j + 1) _ _ ?_ hc
    unfold OpExpr.plus Lin.plus
    refine Lin.mem_fold_add (fun w => W w ≤ ((n + (j + 1 + k) * m : Nat) : Int)) (fun p : OperatorProduct × Rational => p.1) _ _ _ (by rw [he] at hA; exact hA) ?_
    intro q hq
    refine (hc q hq).trans ?_
    have : n + (j + 1) * m ≤ n + (j + 1 + k) * m := Nat.add_le_add_left (Nat.mul_le_mul_right _ (by omega)) _
    exact_mod_cast this

/-- an additive weight of the products in an expression that a program builds -/
theorem run_weight (hist : List RegOp) (hok : allOk OSI.empty hist) (h8 : (runReg OSI.empty hist).spaces.length ≤ 8) {letters : α → Str}
    (hnd : ∀ a, (letters a).Nodup) (hal : ∀ a, ∀ c ∈ letters a, isAlpha c = true ∧ c ∈ (runReg OSI.empty hist).spaces.map (·.label)) {W : OperatorProduct → Int} (hW : ∀ u w, W (u ++ w) = W u + W w)
    {b : Nat → α → α → Nat} {P : GenProg α}
    (hb : Gens (fun label rank cre ann => ∀ g : GraphMatrix, Spans (runReg OSI.empty hist) (letters cre) rank g.cre → Spans (runReg OSI.empty hist) (letters ann) rank g.ann → W [⟨label, g⟩] ≤ b rank cre ann) P)
    {E : OpExpr} (h : P.run (runReg OSI.empty hist) letters = .ok E) : ∀ q ∈ E, W q.1 ≤ P.weight b := by
  induction P generalizing E with
  | gen label rank cre ann =>
    intro q hq
    obtain ⟨g, hg, s1, s2⟩ := genOp_form hist hok label (letters cre) (letters ann) rank h8 (hnd _) (hnd _) (hal _) (hal _) h q hq
    rw [hg]
    exact hb g s1 s2
  | plus x y ihx ihy =>
    obtain ⟨X, h1, h⟩ := bind_ok' h
    obtain ⟨Y, h2, h⟩ := bind_ok' h
    cases h
    refine mem_plus' (Q := fun w => W w ≤ ((max (x.weight b) (y.weight b) : Nat) : Int)) (fun q hq => ?_) (fun q hq => ?_)
    · have := ihx hb.1 h1 q hq; push_cast; omega
    · have := ihy hb.2 h2 q hq; push_cast; omega
  | minus x y ihx ihy =>
    obtain ⟨X, h1, h⟩ := bind_ok' h
    obtain ⟨Y, h2, h⟩ := bind_ok' h
    cases h
    refine mem_minus' (Q := fun w => W w ≤ ((max (x.weight b) (y.weight b) : Nat) : Int)) (fun q hq => ?_) (fun q hq => ?_)
    · have := ihx hb.1 h1 q hq; push_cast; omega
    · have := ihy hb.2 h2 q hq; push_cast; omega
  | scale n d x ih =>
    obtain ⟨X, h1, h⟩ := bind_ok' h
    cases h
    intro q hq
    unfold Lin.smul at hq
    obtain ⟨q', hq', rfl⟩ := List.mem_map.1 hq
    exact ih hb h1 q' hq'
  | mul x y ihx ihy =>
    obtain ⟨X, h1, h⟩ := bind_ok' h
    obtain ⟨Y, h2, h⟩ := bind_ok' h
    cases h
    refine mem_mul' (Q := fun w => W w ≤ ((x.weight b + y.weight b : Nat) : Int)) (fun p hp q hq => ?_)
    have := ihx hb.1 h1 p hp
    have := ihy hb.2 h2 q hq
    rw [hW]; push_cast; omega
  | comm x y ihx ihy =>
    obtain ⟨X, h1, h⟩ := bind_ok' h
    obtain ⟨Y, h2, h⟩ := bind_ok' h
    cases h
    refine Wick.mem_commutator (Q := fun w => W w ≤ ((x.weight b + y.weight b : Nat) : Int)) (fun p hp q hq => ?_)
    have := ihx hb.1 h1 p hp
    have := ihy hb.2 h2 q hq
    rw [hW, hW]; push_cast; omega
  | bch x y n ihx ihy =>
    obtain ⟨X, h1, h⟩ := bind_ok' h
    obtain ⟨Y, h2, h⟩ := bind_ok' h
    cases h
    have hX : ∀ p ∈ X, W p.1 ≤ ((x.weight b + 0 * y.weight b : Nat) : Int) := fun p hp => by simpa using ihx hb.1 h1 p hp
    have := mem_bchLoop_weight hW (n := x.weight b) (ihy hb.2 h2) n 0 0 (OpExpr.plus [] X) X (by
      unfold OpExpr.plus Lin.plus
      refine Lin.mem_fold_add (fun w => W w ≤ ((x.weight b + (0 + n) * y.weight b : Nat) : Int)) (fun p : OperatorProduct × Rational => p.1) _ _ _ (by simp) ?_
      intro q hq
      refine (hX q hq).trans ?_
      have : x.weight b + 0 * y.weight b ≤ x.weight b + (0 + n) * y.weight b := Nat.add_le_add_left (Nat.mul_le_mul_right _ (by omega)) _
      exact_mod_cast this) hX
    unfold OpExpr.bchSeries
    rw [GenProg.weight]
    simpa using this

theorem gens_true {Q : Str → Nat → α → α → Prop} (h : ∀ l r c a, Q l r c a) (P : GenProg α) : Gens Q P := (gens_labels P).mono (fun l r c a _ => h l r c a)

/-- the numbers of second-quantized operators in the products of a program -/
theorem run_counts (hist : List RegOp) (hok : allOk OSI.empty hist) (h8 : (runReg OSI.empty hist).spaces.length ≤ 8) {letters : α → Str}
    (hnd : ∀ a, (letters a).Nodup) (hal : ∀ a, ∀ c ∈ letters a, isAlpha c = true ∧ c ∈ (runReg OSI.empty hist).spaces.map (·.label)) {P : GenProg α}
    {E : OpExpr} (h : P.run (runReg OSI.empty hist) letters = .ok E) :
    ∀ q ∈ E, totalOps (runReg OSI.empty hist).spaces.length q.1 ≤ P.numOps ∧ ∀ s < (runReg OSI.empty hist).spaces.length, Wick.spaceOps q.1 s ≤ P.perSpace letters := by
  have hR := goodReg hist hok
  intro q hq
  refine ⟨?_, fun s hs => ?_⟩
  · rw [totalOps_word, GenProg.numOps_eq]
    refine run_weight hist hok h8 hnd hal (wordOps_append _) (gens_true ?_ P) h q hq
    intro label rank cre ann g s1 s2
    have := s1.2.2
    have := s2.2.2
    simp only [wordOps, List.map_cons, List.map_nil, List.sum_cons, List.sum_nil, List.sum_map_add, add_zero]
    push_cast
    omega
  · rw [GenProg.perSpace_eq]
    refine run_weight hist hok h8 hnd hal (W := fun w => Wick.spaceOps w s) (fun u w => by simp [Wick.spaceOps]) (gens_true ?_ P) h q hq
    intro label rank cre ann g s1 s2
    have h1 := spans_le s1 hs
    have h2 := spans_le s2 hs
    simp only [Wick.spaceOps, List.map_cons, List.map_nil, List.sum_cons, List.sum_nil, add_zero]
    split
    · rename_i hd
      by_cases hc : g.cre s = 0
      · omega
      · by_cases ha : g.ann s = 0
        · omega
        · exfalso
          obtain ⟨c, hc, e1⟩ := s1.2.1 s hc
          obtain ⟨c', hc', e2⟩ := s2.2.1 s ha
          obtain ⟨e3, e4, y, e5, e6⟩ := spOf_spec hR (hal _ c hc).2
          obtain ⟨f3, f4, z, f5, f6⟩ := spOf_spec hR (hal _ c' hc').2
          have e7 : spOf (runReg OSI.empty hist) c = s := by rw [e3] at e1; simpa using e1
          have f7 : spOf (runReg OSI.empty hist) c' = s := by rw [f3] at e2; simpa using e2
          rw [e7] at e5
          rw [f7, e5] at f5
          cases f5
          rw [e6] at f6
          subst f6
          exact hd c hc hc'
    · push_cast; omega

end

section
variable {α : Type}

/-- **C93**, the programs run to the end: a program built from calls of `gen_op` whose products have at most 201 second-quantized operators, at most 32 of one space, builds an expression,
and `contract` returns for every window of ranks; the terms of the result have at most as many different indices as the products have second-quantized operators. -/
theorem C93_returns (hist : List RegOp) (hok : allOk OSI.empty hist) (h8 : (runReg OSI.empty hist).spaces.length ≤ 8) {letters : α → Str} (hnd : ∀ a, (letters a).Nodup)
    (hal : ∀ a, ∀ c ∈ letters a, isAlpha c = true ∧ c ∈ (runReg OSI.empty hist).spaces.map (·.label)) {P : GenProg α} (hP : P.NonZero) (hsz : P.numOps ≤ 201) (h32 : P.perSpace letters ≤ 32)
    {cfg : WickCfg} {f : Rational} (hf : Canon f) (minr maxr : Int) :
    ∃ E e, P.run (runReg OSI.empty hist) letters = .ok E ∧ Wick.contractExpr (runReg OSI.empty hist) cfg f E minr maxr = .ok e ∧ ∀ p ∈ e, p.1.allIdx.toFinset.card ≤ P.numOps := by
  -- any orbitals will do
  let v : OrbSystem Unit ℚ ℚ := ⟨fun _ => ∅, fun _ _ _ => 0, fun _ _ => 0⟩
  obtain ⟨E, hE, hr⟩ := run_ok (v := v) (N := fun _ => (0 : ℚ)) (S := fun _ => ∅) hist hok h8
    ⟨hnd, hal, fun a => by
      ext x
      simp only [labelledOrbs, Finset.mem_biUnion, Finset.notMem_empty, iff_false, not_exists, not_and]
      intro c _ hx
      split at hx
      · exact absurd hx (Finset.notMem_empty _)
      · exact absurd hx (Finset.notMem_empty _), fun _ _ _ _ _ x hx => absurd hx (Finset.notMem_empty _)⟩
    (by intro lab; constructor <;> intros <;> simp [v]) (by intro xs ty a b ys; simp) hP
  have hcount := run_counts hist hok h8 hnd hal hE
  have hcan := (built_wf hr.built).toOk.canon
  have hval : ∀ q ∈ E, ∀ p ∈ q.1, p.Valid (runReg OSI.empty hist).spaces.length := fun q hq p hp => ((hr.words q hq).1 p hp).1
  obtain ⟨e, he⟩ := Wick.contractExpr_ok (o := runReg OSI.empty hist) (cfg := cfg) (minr := minr) (maxr := maxr) hf hcan (fun q hq => by
    have h1 := hcount q hq
    obtain ⟨e', he'⟩ := Wick.C48_contract_returns (cfg := cfg) h8 (hval q hq) (h1.1.trans (by exact_mod_cast hsz)) (fun s hs => (h1.2 s hs).trans (by exact_mod_cast h32)) hf minr maxr
    obtain ⟨rs, hu, _⟩ := Wick.contract_spec hf he'
    exact ⟨rs, hu⟩)
  refine ⟨E, e, hE, he, fun p hp => ?_⟩
  obtain ⟨q, hq, e', hc', p', hp', ep⟩ := Wick.contractExpr_mem he p hp
  rw [← ep]
  have h1 := Wick.C49_index_bound h8 (hval q hq) (canon_mul hf (hcan q hq)) hc' hp'
  have h2 := (hcount q hq).1
  omega
end

-- non-trivial: coupled cluster with up to sixfold excitations has at most 52 operators in a product, at most 28 of one space
example : (GenProg.bch (.plus (.gen "H".toList 1 0 0) (.gen "H".toList 2 0 0)) (.gen "T".toList 6 2 1) 4 : GenProg (Fin 3)).numOps = 52 ∧
    (GenProg.bch (.plus (.gen "H".toList 1 0 0) (.gen "H".toList 2 0 0)) (.gen "T".toList 6 2 1) 4 : GenProg (Fin 3)).perSpace letters2 = 28 := by decide

end Wicked
