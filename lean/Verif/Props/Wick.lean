import Verif.Proofs.WickComp
/-! # Steps 1 and 2 of `WickTheorem.contract`: C39, C42, C43 -/
namespace Wicked
open Rational

/-! ## C39: the factor of an operator -/

theorem foldl_div_fact {α : Type _} (l : List α) (f : α → Int) (r : Rational) (hr : Canon r)
    (hf : ∀ a ∈ l, 0 ≤ f a) :
    Canon (l.foldl (fun r a => Rational.div r (Rational.ofInt (factorial (f a)))) r) ∧
    toRat (l.foldl (fun r a => Rational.div r (Rational.ofInt (factorial (f a)))) r) =
      toRat r / ((l.map (fun a => ((f a).toNat.factorial : ℚ))).prod) := by
  induction l generalizing r with
  | nil => exact ⟨hr, by simp⟩
  | cons a l ih =>
    have h0 := hf a (by simp)
    have hfa : factorial (f a) = ((f a).toNat.factorial : Int) := by
      conv_lhs => rw [← Int.toNat_of_nonneg h0]
      exact factorial_nat _
    have hpos : 0 < (Rational.ofInt (factorial (f a))).num := by
      show 0 < factorial (f a)
      rw [hfa]; exact_mod_cast Nat.factorial_pos _
    obtain ⟨h1, h2⟩ := ih (Rational.div r (Rational.ofInt (factorial (f a)))) (canon_div hr hpos)
      (fun x hx => hf x (by simp [hx]))
    refine ⟨h1, ?_⟩
    rw [List.foldl_cons, h2, toRat_div, toRat_ofInt, hfa, List.map_cons, List.prod_cons, div_div]
    push_cast; rfl

/-- **C39**: `op.factor()` is exactly `1 / ∏ₛ cre(s)! ann(s)!`, in lowest terms. -/
theorem C39_operator_factor {ns : Nat} {p : Operator} (hp : p.Valid ns) :
    Canon (p.factor ns) ∧ toRat (p.factor ns) =
      1 / (((List.range ns).map (fun s => ((p.gm.cre s).toNat.factorial : ℚ))).prod *
           ((List.range ns).map (fun s => ((p.gm.ann s).toNat.factorial : ℚ))).prod) := by
  obtain ⟨h1, h2⟩ := foldl_div_fact (List.range ns) (fun s => p.gm.cre s) (Rational.ofInt 1) (canon_ofInt 1)
    (fun s _ => (hp s).1)
  obtain ⟨h3, h4⟩ := foldl_div_fact (List.range ns) (fun s => p.gm.ann s) _ h1 (fun s _ => (hp s).2.1)
  refine ⟨h3, ?_⟩
  unfold Operator.factor
  rw [h4, h2, toRat_ofInt, div_div]; norm_num

/-! ## Examples used below: a closed-shell and a multireference layout -/

/-- an operator with the given (creation, annihilation) counts -/
def mkOp (label : String) (l : List (Int × Int)) : Operator :=
  ⟨label.toList, GraphMatrix.tab (fun s => l.getD s (0, 0))⟩

theorem mkOp_valid (label : String) (l : List (Int × Int)) (ns : Nat) (h : l.length ≤ ns)
    (h0 : ∀ p ∈ l, 0 ≤ p.1 ∧ 0 ≤ p.2) : (mkOp label l).Valid ns := by
  intro s
  unfold mkOp GraphMatrix.cre GraphMatrix.ann
  rw [gm_get_tab]
  split
  · rw [List.getD_eq_getElem?_getD]
    by_cases hs : s < l.length
    · rw [List.getElem?_eq_getElem hs]
      exact ⟨(h0 _ (List.getElem_mem hs)).1, (h0 _ (List.getElem_mem hs)).2, fun h => by omega⟩
    · rw [List.getElem?_eq_none (by omega)]; simp
  · simp

/-- occupied `o`, unoccupied `v` -/
def exSR : OSI := ⟨[⟨'o', .fermion, .occupied, [], []⟩, ⟨'v', .fermion, .unoccupied, [], []⟩], [('o', 0), ('v', 1)], []⟩
/-- occupied `c`, general `a`, unoccupied `v` -/
def exMR : OSI := ⟨[⟨'c', .fermion, .occupied, [], []⟩, ⟨'a', .fermion, .general, [], []⟩,
  ⟨'v', .fermion, .unoccupied, [], []⟩], [('c', 0), ('a', 1), ('v', 2)], []⟩

example : (mkOp "t" [(0, 2), (2, 0)]).Valid 2 ∧ toRat ((mkOp "t" [(0, 2), (2, 0)]).factor 2) = 1 / 4 := by
  refine ⟨mkOp_valid _ _ 2 (by simp) (by simp), ?_⟩
  have : (mkOp "t" [(0, 2), (2, 0)]).factor 2 = ⟨1, 4⟩ := by decide +kernel
  rw [this]; simp [toRat]

/-! ## C42 -/

/-- **C42**: step 1 succeeds and generates, without duplicates, exactly the elementary contractions. -/
theorem C42_elementary_exact {o : OSI} {cfg : WickCfg} {ops : OperatorProduct} (h8 : o.spaces.length ≤ 8)
    (hv : ∀ p ∈ ops, p.Valid o.spaces.length) :
    ∃ el, Wick.elementaryContractions o cfg ops = .ok el ∧ el.Nodup ∧
      ∀ e, e ∈ el ↔ IsElementary o cfg.maxCumulant ops e := elementary_spec hv h8

-- two operators `a+ a` in the general space: all of {(k=1: 4 ways minus the 2 within one operator), (k=2: 1 way)}
example : (∀ p ∈ [mkOp "f" [(0, 0), (1, 1)], mkOp "g" [(0, 0), (1, 1)]], p.Valid exMR.spaces.length) ∧
    (Wick.elementaryContractions exMR {} [mkOp "f" [(0, 0), (1, 1)], mkOp "g" [(0, 0), (1, 1)]]).toOption.map
      List.length = some 3 := by
  refine ⟨?_, by decide +kernel⟩
  intro p hp
  simp only [List.mem_cons, List.not_mem_nil, or_false] at hp
  rcases hp with rfl | rfl <;> exact mkOp_valid _ _ _ (by decide) (by simp)

/-! ## C43 -/

theorem elementary_sizes {o : OSI} {cfg : WickCfg} {ops : OperatorProduct} {el : List EContr} (h8 : o.spaces.length ≤ 8)
    (hv : ∀ p ∈ ops, p.Valid o.spaces.length) (hel : Wick.elementaryContractions o cfg ops = .ok el) :
    ∀ e ∈ el, Wick.Good o.spaces.length ops.length e ∧ 2 ≤ e.numOps := by
  obtain ⟨el', h1, _, h3⟩ := elementary_spec (cfg := cfg) hv h8
  rw [hel] at h1
  injection h1 with h1
  subst h1
  intro e he
  obtain ⟨g1, k, g2, g3⟩ := Wick.elementary_good h8 ((h3 e).1 he)
  exact ⟨g1, by omega⟩

/-- **C43** (partial): on the elementary contractions of the product, step 2 succeeds, terminates,
restores the counts of free operators, and generates, without duplicates, exactly the composite
contractions, provided that no composite contraction is made of more than 100 elementary ones.  Missing:
the other products, for which the code overruns its buffer (`C43_deep_fails`, `C43_buffer_overrun`). -/
theorem C43_composite_exact_partial {o : OSI} {cfg : WickCfg} {ops : OperatorProduct} {el : List EContr} (minr maxr : Int)
    (h8 : o.spaces.length ≤ 8) (hv : ∀ p ∈ ops, p.Valid o.spaces.length)
    (hel : Wick.elementaryContractions o cfg ops = .ok el) (hsh : Shallow o.spaces.length ops el) :
    ∃ L, Wick.compositeContractions o.spaces.length ops el minr maxr = .ok L ∧
      Wick.backtrack o.spaces.length el minr maxr ((GraphMatrix.sumNumOps (ops.map Operator.gm)).toNat + 1)
        (List.replicate 100 (-1)) 0 (ops.map Operator.gm) [] = .ok (ops.map Operator.gm, L) ∧
      L.Nodup ∧ ∀ cv, cv ∈ L ↔ IsComposite o.spaces.length ops el minr maxr cv :=
  (Wick.composite_spec hv h8 (elementary_sizes h8 hv hel) minr maxr).1 hsh

/-- **C43**: products of at most 201 second-quantized operators meet the condition -/
theorem C43_small_products {o : OSI} {cfg : WickCfg} {ops : OperatorProduct} {el : List EContr} (h8 : o.spaces.length ≤ 8)
    (hv : ∀ p ∈ ops, p.Valid o.spaces.length) (hel : Wick.elementaryContractions o cfg ops = .ok el)
    (hsz : totalOps o.spaces.length ops ≤ 201) : Shallow o.spaces.length ops el :=
  Wick.shallow_of_size hv h8 (elementary_sizes h8 hv hel) hsz

/-- **C43**, the exact boundary: if some composite contraction is made of more than 100 elementary ones,
step 2 writes past the end of its buffer, whatever the window. -/
theorem C43_deep_fails {o : OSI} {cfg : WickCfg} {ops : OperatorProduct} {el : List EContr} (minr maxr : Int)
    (h8 : o.spaces.length ≤ 8) (hv : ∀ p ∈ ops, p.Valid o.spaces.length)
    (hel : Wick.elementaryContractions o cfg ops = .ok el) (hd : ¬ Shallow o.spaces.length ops el) :
    Wick.compositeContractions o.spaces.length ops el minr maxr = .error .ub :=
  (Wick.composite_spec hv h8 (elementary_sizes h8 hv hel) minr maxr).2 hd

-- <f o v t v o> with a full window: nothing, one or two contractions
example : totalOps 2 [mkOp "f" [(1, 0), (0, 1)], mkOp "t" [(0, 1), (1, 0)]] = 4 ∧
    (do let ops := [mkOp "f" [(1, 0), (0, 1)], mkOp "t" [(0, 1), (1, 0)]]
        let el ← Wick.elementaryContractions exSR {} ops
        Wick.compositeContractions 2 ops el 0 4) = .ok [[], [0], [0, 1], [1]] := by
  decide +kernel

/-- one creation operator `a` (×101) times one annihilation operator (×101) of an occupied space -/
def deepOps : OperatorProduct := [mkOp "x" [(101, 0)], mkOp "y" [(0, 101)]]
def exO : OSI := ⟨[⟨'o', .fermion, .occupied, [], []⟩], [('o', 0)], []⟩

/-- **C43**, negation beyond the bound: with 202 operators that contract 101 times, step 2 writes
past the end of its buffer of 100 entries. -/
theorem C43_buffer_overrun : (∀ p ∈ deepOps, p.Valid exO.spaces.length) ∧
    ∃ el, Wick.elementaryContractions exO {} deepOps = .ok el ∧
      Wick.compositeContractions 1 deepOps el 0 0 = .error .ub := by
  refine ⟨?_, [((GraphMatrix.zero).setCre 0 1), ((GraphMatrix.zero).setAnn 0 1)] :: [], by decide +kernel, by decide +kernel⟩
  intro p hp
  simp only [deepOps, List.mem_cons, List.not_mem_nil, or_false] at hp
  rcases hp with rfl | rfl <;> exact mkOp_valid _ _ _ (by decide) (by simp)

end Wicked
