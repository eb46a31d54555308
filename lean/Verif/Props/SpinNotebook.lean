import Verif.Props.Notebook
import Verif.Props.SpinExample
/-! # C96 for the spin-integrated notebooks -/
namespace Wicked
open CppLt CppEq Rational Lin GenOp
namespace Wick

/-! ## The contraction of a coupled-cluster series returns -/

theorem sum_cast (ns : Nat) (f : Nat → Int) (hf : ∀ s, 0 ≤ f s) : ((((List.range ns).map (fun s => (f s).toNat)).sum : Nat) : Int) = ((List.range ns).map f).sum := by
  rw [Nat.cast_list_sum, List.map_map]
  congr 1
  exact List.map_congr_left (fun s _ => by simp [hf s])

theorem cc_expr {o : OSI} (h8 : o.spaces.length ≤ 8) (hsr : ∀ s : Nat, s < o.spaces.length → o.spaceType s ≠ .ok .general) {cfg : WickCfg} {H T : OpExpr} {N ord a b a' b' : Nat} (minr maxr : Int)
    (hin : CCInput o H T N) (hH : ∀ q ∈ H, totalOps o.spaces.length q.1 ≤ a ∧ ∀ s < o.spaces.length, spaceOps q.1 s ≤ a')
    (hT : ∀ q ∈ T, totalOps o.spaces.length q.1 ≤ b ∧ ∀ s < o.spaces.length, spaceOps q.1 s ≤ b') (h52 : a + ord * b ≤ 52) (h32 : a' + ord * b' ≤ 32)
    (hbal : ∀ x, OpsOf H x ∨ OpsOf T x → (x.label = ['H'] ∨ x.label = ['T']) ∧ ((List.range o.spaces.length).map x.gm.cre).sum = ((List.range o.spaces.length).map x.gm.ann).sum) :
    ∃ e, contractExpr o cfg (Rational.ofInt 1) (OpExpr.bchSeries H T ord) minr maxr = .ok e ∧
      (∀ p ∈ e, p.1.allIdx.toFinset.card ≤ 52) ∧ ∀ p ∈ e, ∀ y ∈ p.1.tensors, (y.label = ['H'] ∨ y.label = ['T']) ∧ y.lower.length = y.upper.length := by
  obtain ⟨hE, h3⟩ := ccInput_bch hin ord
  have hw : ∀ {W : OperatorProduct → Int} (_ : ∀ u w, W (u ++ w) = W u + W w) {n m : Nat} (_ : ∀ q ∈ H, W q.1 ≤ n) (_ : ∀ q ∈ T, W q.1 ≤ m), ∀ q ∈ OpExpr.bchSeries H T ord, W q.1 ≤ ((n + ord * m : Nat) : Int) := by
    intro W hW n m h1 h2
    have h1' : ∀ p ∈ H, W p.1 ≤ ((n + 0 * m : Nat) : Int) := fun p hp => by simpa using h1 p hp
    have := mem_bchLoop_weight hW (n := n) h2 ord 0 0 (OpExpr.plus [] H) H (by
      unfold OpExpr.plus Lin.plus
      refine Lin.mem_fold_add (fun w => W w ≤ ((n + (0 + ord) * m : Nat) : Int)) (fun p : OperatorProduct × Rational => p.1) _ _ _ (by simp) ?_
      intro q hq
      refine (h1' q hq).trans ?_
      have : n + 0 * m ≤ n + (0 + ord) * m := Nat.add_le_add_left (Nat.mul_le_mul_right _ (by omega)) _
      exact_mod_cast this) h1'
    unfold OpExpr.bchSeries
    simpa using this
  have htot : ∀ q ∈ OpExpr.bchSeries H T ord, totalOps o.spaces.length q.1 ≤ ((a + ord * b : Nat) : Int) := by
    intro q hq
    rw [totalOps_word]
    exact hw (wordOps_append _) (fun q hq => by rw [← totalOps_word]; exact (hH q hq).1) (fun q hq => by rw [← totalOps_word]; exact (hT q hq).1) q hq
  have hspace : ∀ s < o.spaces.length, ∀ q ∈ OpExpr.bchSeries H T ord, spaceOps q.1 s ≤ ((a' + ord * b' : Nat) : Int) := fun s hs =>
    hw (W := fun w => spaceOps w s) (fun u w => by simp [spaceOps]) (fun q hq => (hH q hq).2 s hs) (fun q hq => (hT q hq).2 s hs)
  obtain ⟨e, he⟩ := contractExpr_ok (o := o) (cfg := cfg) (minr := minr) (maxr := maxr) (canon_ofInt 1) (fun q hq => (hE q hq).2.1) (fun q hq => by
    obtain ⟨e', he'⟩ := C48_contract_returns (cfg := cfg) h8 (fun p hp => ((hE q hq).2.2 p hp).1) ((htot q hq).trans (by exact_mod_cast (show a + ord * b ≤ 201 by omega)))
      (fun s hs => (hspace s hs q hq).trans (by exact_mod_cast h32)) (canon_ofInt 1) minr maxr
    obtain ⟨rs, hu, _⟩ := contract_spec (canon_ofInt 1) he'
    exact ⟨rs, hu⟩)
  have fE := mem_bch (H := H) (T := T) (Q := fun l => ∀ x ∈ l, (x.label = ['H'] ∨ x.label = ['T']) ∧ ((List.range o.spaces.length).map x.gm.cre).sum = ((List.range o.spaces.length).map x.gm.ann).sum)
    (fun q hq x hx => hbal x (.inl ⟨q, hq, hx⟩)) (fun q hq l hl => by
      have hx : ∀ x ∈ q.1, _ := fun x hx => hbal x (.inr ⟨q, hq, hx⟩)
      constructor <;> intro x h <;> rcases List.mem_append.1 h with h | h
      · exact hl x h
      · exact hx x h
      · exact hx x h
      · exact hl x h) ord
  refine ⟨e, he, fun p hp => ?_, fun p hp y hy => ?_⟩
  · obtain ⟨q, hq, e', hc', p', hp', ep⟩ := contractExpr_mem he p hp
    rw [← ep]
    have h1 := C49_index_bound h8 (fun p hp => ((hE q hq).2.2 p hp).1) (canon_mul (canon_ofInt 1) (hE q hq).2.1) hc' hp'
    have h2 := htot q hq
    omega
  · obtain ⟨q, hq, e', hc', p', hp', ep⟩ := contractExpr_mem he p hp
    have hper := C49_tensors_determinant h8 hsr (fun x hx => ((hE q hq).2.2 x hx).1) (canon_mul (canon_ofInt 1) (hE q hq).2.1) hc' hp'
    rw [ep] at hper
    have hm := hper.mem_iff.1 (List.mem_map_of_mem (f := fun y : Tensor => (y.label, y.lower.length, y.upper.length)) hy)
    obtain ⟨x, hx, ex⟩ := List.mem_map.1 hm
    obtain ⟨h1, h3⟩ := fE q hq x hx
    simp only [operatorShape, Prod.mk.injEq] at ex
    refine ⟨ex.1 ▸ h1, ?_⟩
    rw [← ex.2.1, ← ex.2.2]
    have c1 := sum_cast o.spaces.length x.gm.cre (fun s => (((hE q hq).2.2 x hx).1 s).1)
    have c2 := sum_cast o.spaces.length x.gm.ann (fun s => (((hE q hq).2.2 x hx).1 s).2.1)
    rw [h3, ← c2] at c1
    exact_mod_cast c1

/-! ## Operators that change the spin have the value zero -/

theorem CCInput.sub {o : OSI} {H T H' T' : OpExpr} {N : Nat} (h : CCInput o H T N) (bH : Built H') (bT : Built T') (sH : ∀ q ∈ H', q ∈ H) (sT : ∀ q ∈ T', q ∈ T) : CCInput o H' T' N where
  builtH := bH
  builtT := bT
  neH q hq := h.neH q (sH q hq)
  neT q hq := h.neT q (sT q hq)
  size q hq := h.size q (sH q hq)
  validH x := fun ⟨q, hq, hx⟩ => h.validH x ⟨q, sH q hq, hx⟩
  two x := fun ⟨q, hq, hx⟩ => h.two x ⟨q, sH q hq, hx⟩
  excT x := fun ⟨q, hq, hx⟩ => h.excT x ⟨q, sT q hq, hx⟩
  label x := by
    rintro (⟨q, hq, hx⟩ | ⟨q, hq, hx⟩)
    · exact h.label x (.inl ⟨q, sH q hq, hx⟩)
    · exact h.label x (.inr ⟨q, sT q hq, hx⟩)

theorem sum_sub {α M : Type} [DecidableEq α] [AddCommMonoid M] (f : α → M) {E F : List α} (hE : E.Nodup) (hF : F.Nodup) (hs : ∀ q ∈ E, q ∈ F) (h0 : ∀ q ∈ F, q ∈ E ∨ f q = 0) :
    (E.map f).sum = (F.map f).sum := by
  rw [← List.sum_toFinset f hE, ← List.sum_toFinset f hF]
  refine Finset.sum_subset (fun q hq => List.mem_toFinset.2 (hs q (List.mem_toFinset.1 hq))) (fun q hq hn => ?_)
  rcases h0 q (List.mem_toFinset.1 hq) with h | h
  · exact absurd (List.mem_toFinset.2 h) hn
  · exact h

/-- a product of one operator that changes the number of electrons with spin up (the spaces 0 and 1) -/
def ChangesSpin (w : OperatorProduct) : Prop := match w with
  | [x] => x.gm.cre 0 + x.gm.cre 1 ≠ x.gm.ann 0 + x.gm.ann 1
  | _ => False

instance (w : OperatorProduct) : Decidable (ChangesSpin w) := by unfold ChangesSpin; split <;> infer_instance

section
variable {Ω R B : Type} [Inhabited Ω] [DecidableEq Ω] [CommRing R] [Ring B] [Algebra R B] [Algebra ℚ R] [Algebra ℚ B] [IsScalarTower ℚ R B]

theorem countP_spin {alpha : Ω → Bool} {v : OrbSystem Ω R B} (ha : ∀ s : Nat, s < 4 → ∀ x ∈ v.dom s, alpha x = decide (s < 2)) (c : Bool) (f : Nat → Nat) (x : Slot → Ω)
    (hx : ∀ y ∈ (List.range 4).flatMap (fun s => (List.range (f s)).map (fun k => (⟨0, s, c, k⟩ : Slot))), x y ∈ v.dom y.space) :
    (((List.range 4).flatMap (fun s => (List.range (f s)).map (fun k => (⟨0, s, c, k⟩ : Slot)))).map x).countP alpha = f 0 + f 1 := by
  rw [List.countP_map]
  have h1 : ((List.range 4).flatMap (fun s => (List.range (f s)).map (fun k => (⟨0, s, c, k⟩ : Slot)))).countP (alpha ∘ x) =
      ((List.range 4).flatMap (fun s => (List.range (f s)).map (fun k => (⟨0, s, c, k⟩ : Slot)))).countP (fun y => decide (y.space < 2)) := by
    refine List.countP_congr (fun y hy => ?_)
    have h := hx y hy
    obtain ⟨s, hs, hy⟩ := List.mem_flatMap.1 hy
    obtain ⟨k, _, rfl⟩ := List.mem_map.1 hy
    rw [Function.comp, ha s (List.mem_range.1 hs) _ h]
  rw [h1]
  have h2 : List.range 4 = [0, 1, 2, 3] := rfl
  have h3 : ∀ s : Nat, ((List.range (f s)).map (fun k => (⟨0, s, c, k⟩ : Slot))).countP (fun y => decide (y.space < 2)) = if s < 2 then f s else 0 := by
    intro s
    rw [List.countP_map]
    by_cases hs : s < 2
    · rw [if_pos hs, List.countP_eq_length.2 (fun k _ => by simpa [Function.comp] using hs), List.length_range]
    · rw [if_neg hs, List.countP_eq_zero]
      intro k _
      simpa [Function.comp] using hs
  rw [h2]
  simp only [List.flatMap_cons, List.flatMap_nil, List.countP_append, h3, List.append_nil]
  simp

theorem changesSpin_zero {alpha : Ω → Bool} {v : OrbSystem Ω R B} (hole : Ω → Bool) (ha : ∀ s : Nat, s < 4 → ∀ x ∈ v.dom s, alpha x = decide (s < 2)) {x : Operator} (hv : x.Valid 4)
    (hT : ConservesSpin alpha (v.T x.label)) (hb : ((List.range 4).map x.gm.cre).sum = ((List.range 4).map x.gm.ann).sum) (h : ChangesSpin [x]) : v.opValue hole 4 x = 0 := by
  unfold OrbSystem.opValue
  have hlen : ∀ y : Slot → Ω, ((creSlots 4 0 x).map y).length = ((annSlots 4 0 x).map y).length := by
    intro y
    have c1 := sum_cast 4 x.gm.cre (fun s => (hv s).1)
    have c2 := sum_cast 4 x.gm.ann (fun s => (hv s).2.1)
    rw [hb, ← c2] at c1
    have c1 : ((List.range 4).map (fun s => (x.gm.cre s).toNat)).sum = ((List.range 4).map (fun s => (x.gm.ann s).toNat)).sum := by exact_mod_cast c1
    simp only [creSlots, annSlots, List.length_map, List.length_flatMap, List.length_range]
    exact c1
  rw [sumOver_congr (G := fun _ => (0 : B)), sumOver_zero, smul_zero]
  intro y hy
  have hm : ∀ z, z ∈ creSlots 4 0 x ∨ z ∈ annSlots 4 0 x → y z ∈ v.dom z.space := by
    intro z hz
    refine hy z (List.mem_toFinset.2 ?_)
    unfold opSlots
    rcases hz with hz | hz
    · exact List.mem_append_left _ hz
    · exact List.mem_append_right _ (List.mem_reverse.2 hz)
  rw [hT _ _ (hlen y), zero_smul]
  rw [creSlots, annSlots, countP_spin ha true _ y (fun z hz => hm z (.inl hz)), countP_spin ha false _ y (fun z hz => hm z (.inr hz))]
  have h : x.gm.cre 0 + x.gm.cre 1 ≠ x.gm.ann 0 + x.gm.ann 1 := h
  have := hv 0
  have := hv 1
  omega

theorem nodup_of_wf {E : OpExpr} (hE : Lin.WF E) : E.Nodup := by
  refine hE.toOk.sorted.imp ?_
  rintro p _ hlt rfl
  rw [StrictWeak.irrefl] at hlt
  cases hlt

theorem value_sub {alpha : Ω → Bool} {v : OrbSystem Ω R B} (hole : Ω → Bool) (ha : ∀ s : Nat, s < 4 → ∀ x ∈ v.dom s, alpha x = decide (s < 2)) (hT : ∀ lab, ConservesSpin alpha (v.T lab))
    {E F : OpExpr} (bE : Built E) (bF : Built F) (hF : ∀ q ∈ F, ∀ x ∈ q.1, x.Valid 4 ∧ ((List.range 4).map x.gm.cre).sum = ((List.range 4).map x.gm.ann).sum)
    (hs : ∀ q ∈ E, q ∈ F) (h0 : ∀ q ∈ F, q ∈ E ∨ ChangesSpin q.1) : v.exprValue hole 4 E = v.exprValue hole 4 F := by
  refine sum_sub _ (nodup_of_wf (built_wf bE)) (nodup_of_wf (built_wf bF)) hs (fun q hq => ?_)
  rcases h0 q hq with h | h
  · exact .inl h
  · right
    match hq1 : q.1, h with
    | [x], h =>
      have := hF q hq x (by rw [hq1]; simp)
      rw [List.map_singleton, List.prod_singleton, changesSpin_zero hole ha this.1 (hT _) this.2 h, smul_zero]
    | [], h => exact absurd h (by simp [ChangesSpin])
    | _ :: _ :: _, h => exact absurd h (by simp [ChangesSpin])
end

/-! ## The notebooks -/

/-- names 0, 1, 2: all, occupied, virtual orbitals -/
def letters4 (a : Fin 3) : Str := if a = 0 then "ovOV".toList else if a = 1 then "oO".toList else "vV".toList

abbrev spinO : OSI := runReg OSI.empty spinNotebook

theorem spin_hops : ∃ E F, OpExpr.make spinO ['H'] spinHops true = .ok E ∧ hamProg.run spinO letters4 = .ok F ∧ (∀ q ∈ E, q ∈ F) ∧ ∀ q ∈ F, q ∈ E ∨ ChangesSpin q.1 := by
  obtain ⟨x, hx, h⟩ := ok_of_check (x := OpExpr.make spinO ['H'] spinHops true >>= fun E => hamProg.run spinO letters4 >>= fun F => pure (E, F))
    (fun x => decide ((∀ q ∈ x.1, q ∈ x.2) ∧ ∀ q ∈ x.2, q ∈ x.1 ∨ ChangesSpin q.1)) (by decide +kernel)
  obtain ⟨E, hE, hx⟩ := bind_ok' hx
  obtain ⟨F, hF, hx⟩ := bind_ok' hx
  cases hx
  exact ⟨E, F, hE, hF, of_decide_eq_true h⟩

theorem spin_tops2 : ∃ E F, OpExpr.make spinO ['T'] (spinTops false) true = .ok E ∧ (clusterProg 1 [2]).run spinO letters4 = .ok F ∧ (∀ q ∈ E, q ∈ F) ∧ ∀ q ∈ F, q ∈ E ∨ ChangesSpin q.1 := by
  obtain ⟨x, hx, h⟩ := ok_of_check (x := OpExpr.make spinO ['T'] (spinTops false) true >>= fun E => (clusterProg 1 [2]).run spinO letters4 >>= fun F => pure (E, F))
    (fun x => decide ((∀ q ∈ x.1, q ∈ x.2) ∧ ∀ q ∈ x.2, q ∈ x.1 ∨ ChangesSpin q.1)) (by decide +kernel)
  obtain ⟨E, hE, hx⟩ := bind_ok' hx
  obtain ⟨F, hF, hx⟩ := bind_ok' hx
  cases hx
  exact ⟨E, F, hE, hF, of_decide_eq_true h⟩

theorem spin_tops3 : ∃ E F, OpExpr.make spinO ['T'] (spinTops true) true = .ok E ∧ (clusterProg 1 [2, 3]).run spinO letters4 = .ok F ∧ (∀ q ∈ E, q ∈ F) ∧ ∀ q ∈ F, q ∈ E ∨ ChangesSpin q.1 := by
  obtain ⟨x, hx, h⟩ := ok_of_check (x := OpExpr.make spinO ['T'] (spinTops true) true >>= fun E => (clusterProg 1 [2, 3]).run spinO letters4 >>= fun F => pure (E, F))
    (fun x => decide ((∀ q ∈ x.1, q ∈ x.2) ∧ ∀ q ∈ x.2, q ∈ x.1 ∨ ChangesSpin q.1)) (by decide +kernel)
  obtain ⟨E, hE, hx⟩ := bind_ok' hx
  obtain ⟨F, hF, hx⟩ := bind_ok' hx
  cases hx
  exact ⟨E, F, hE, hF, of_decide_eq_true h⟩

theorem spin_tops (triples : Bool) : ∃ E F, OpExpr.make spinO ['T'] (spinTops triples) true = .ok E ∧ (clusterProg 1 (if triples then [2, 3] else [2])).run spinO letters4 = .ok F ∧
    (∀ q ∈ E, q ∈ F) ∧ ∀ q ∈ F, q ∈ E ∨ ChangesSpin q.1 := by
  cases triples
  · exact spin_tops2
  · exact spin_tops3


theorem spin_ok : allOk OSI.empty spinNotebook := by refine ⟨?_, ?_, ?_, ?_, trivial⟩ <;> decide +kernel

theorem spin_names : ∀ s ∈ spinO.spaces, ∀ name ∈ s.indices, ∀ (c : Char) (n : Int), name ≠ c :: '_' :: '{' :: (intStr n ++ ['}']) := by
  intro s hs name hn c n he
  have h1 := (by decide +kernel : ∀ s ∈ spinO.spaces, ∀ name ∈ s.indices, name.length = 1) s hs name hn
  rw [he] at h1
  simp at h1

theorem spin_alpha : ∀ s ∈ spinO.spaces, isAlpha s.label = true := by decide +kernel

section
variable {Ω R : Type} [Inhabited Ω] [Fintype Ω] [LinearOrder Ω] [CommRing R] [Algebra ℚ R]

/-- the orbitals of the spaces `o`, `v`, `O`, `V` -/
def spinOrbs (hole alpha : Ω → Bool) (s : Int) : Finset Ω := Finset.univ.filter (fun x => hole x = decide (s = 0 ∨ s = 2) ∧ alpha x = decide (s < 2))

theorem names_spin (T : Str → List Ω → List Ω → R) (hole alpha : Ω → Bool) (d : Int → Finset Ω) (hd : ∀ s : Nat, s < 4 → d s = spinOrbs hole alpha s) :
    let v : OrbSystem Ω R (Module.End R (FockSpace Ω R)) := ⟨d, T, fockOp R hole⟩
    Names spinO v letters4 (fun a => if a = 0 then Finset.univ else Finset.univ.filter (fun x => hole x = decide (a = 1))) ∧ v.Vacuum spinO hole := by
  intro v
  have hlen : spinO.spaces.length = 4 := by decide +kernel
  have l0 : spinO.labelToSpace 'o' = .ok 0 := by decide +kernel
  have l1 : spinO.labelToSpace 'v' = .ok 1 := by decide +kernel
  have l2 : spinO.labelToSpace 'O' = .ok 2 := by decide +kernel
  have l3 : spinO.labelToSpace 'V' = .ok 3 := by decide +kernel
  have d0 : d 0 = spinOrbs hole alpha 0 := hd 0 (by decide)
  have d1 : d 1 = spinOrbs hole alpha 1 := hd 1 (by decide)
  have d2 : d 2 = spinOrbs hole alpha 2 := hd 2 (by decide)
  have d3 : d 3 = spinOrbs hole alpha 3 := hd 3 (by decide)
  have hdis : ∀ s s' : Nat, s < spinO.spaces.length → s' < spinO.spaces.length → s ≠ s' → ∀ x ∈ v.dom s, x ∉ v.dom s' := by
    intro s s' h1 h2 hne x hx hx'
    rw [hlen] at h1 h2
    have hx : x ∈ d s := hx
    have hx' : x ∈ d s' := hx'
    rw [hd _ h1] at hx
    rw [hd _ h2] at hx'
    simp only [spinOrbs, Finset.mem_filter, Finset.mem_univ, true_and] at hx hx'
    obtain ⟨a1, a2⟩ := hx
    obtain ⟨b1, b2⟩ := hx'
    rw [a1, decide_eq_decide] at b1
    rw [a2, decide_eq_decide] at b2
    omega
  refine ⟨⟨?_, ?_, ?_, hdis⟩, ⟨?_, hdis⟩⟩
  · decide
  · decide +kernel
  · intro i
    unfold labelledOrbs
    match i with
    | 0 =>
      ext x
      simp only [letters4, if_true, Finset.mem_biUnion, List.mem_toFinset, Finset.mem_univ, iff_true]
      cases hx : hole x <;> cases ha : alpha x
      · exact ⟨'V', by decide, by simp [l3, v, d3, spinOrbs, hx, ha]⟩
      · exact ⟨'v', by decide, by simp [l1, v, d1, spinOrbs, hx, ha]⟩
      · exact ⟨'O', by decide, by simp [l2, v, d2, spinOrbs, hx, ha]⟩
      · exact ⟨'o', by decide, by simp [l0, v, d0, spinOrbs, hx, ha]⟩
    | 1 =>
      show (['o', 'O'] : Str).toFinset.biUnion _ = _
      ext x
      cases ha : alpha x <;> simp [l0, l2, v, d0, d2, spinOrbs, ha]
    | 2 =>
      show (['v', 'V'] : Str).toFinset.biUnion _ = _
      ext x
      cases ha : alpha x <;> simp [l1, l3, v, d1, d3, spinOrbs, ha]
  · intro s hlt
    rw [hlen] at hlt
    have hh : ∀ x ∈ v.dom s, hole x = decide (s = 0 ∨ s = 2) := by
      intro x hx
      have hx : x ∈ d s := hx
      rw [hd s hlt] at hx
      rw [(Finset.mem_filter.1 hx).2.1, decide_eq_decide]
      omega
    match s, hlt with
    | 0, _ => left; exact ⟨by decide +kernel, by simpa using hh⟩
    | 1, _ => right; exact ⟨by decide +kernel, by simpa using hh⟩
    | 2, _ => left; exact ⟨by decide +kernel, by simpa using hh⟩
    | 3, _ => right; exact ⟨by decide +kernel, by simpa using hh⟩

theorem spin_cluster (triples : Bool) : let P := clusterProg 1 (if triples then [2, 3] else [2])
    P.NonZero ∧ P.Excites spinO letters4 ∧ (∀ lab ∈ P.labels, lab = ['H'] ∨ lab = ['T']) ∧ P.numOps ≤ 6 ∧ P.perSpace letters4 ≤ 3 := by
  cases triples
  · refine ⟨⟨trivial, trivial⟩, ⟨?_, ?_⟩, by decide, by decide, by decide⟩ <;> refine ⟨by decide, ?_, ?_⟩ <;> decide +kernel
  · refine ⟨⟨trivial, trivial, trivial⟩, ⟨?_, ?_, ?_⟩, by decide, by decide, by decide⟩ <;> refine ⟨by decide, ?_, ?_⟩ <;> decide +kernel

/-- **C96**, the spin-integrated notebooks from start to finish (examples/numerical/spin-integrated-CCSD.ipynb, spin-integrated-CCSDT.ipynb): with the spaces `o`, `v` (spin up) and `O`, `V` (spin down) that they add, the lists of components
of `Hop` and `Top` that they make - not those that change the spin - and `Hbar = w.bch_series(Hop, Top, 4)`. If the tensors are antisymmetric and conserve spin, then all the calls return, and the functions of `generate_equation`
return, antisymmetrised over the indices of each space, the matrix elements of `exp(-T) H exp(T)` in Fock space, where `H` is the sum of the one- and two-body operators over all the spin orbitals and `T` the sum of all excitation operators - those that the notebooks leave out as
well -, up to `10^-9` of the sum of the absolute values of the terms. If there is no function for a key the matrix elements are zero. -/
theorem C96_spin {S' : Type} [Field S'] [LinearOrder S'] [IsStrictOrderedRing S'] (abv : AbsoluteValue R S') (habv : ∀ c : ℚ, abv (algebraMap ℚ R c) = ((|c| : ℚ) : S'))
    {fmt : Rational → Str} {cfg : WickCfg} {triples : Bool} {minr maxr : Int} (hfmt : PrintsNine fmt) (tensor : Str → List Ω → List Ω → R) (arr : Str → Str → List Ω → R) (hole alpha : Ω → Bool) :
    let o := runReg OSI.empty spinNotebook
    let occ : Finset Ω := Finset.univ.filter (fun x => hole x = true)
    let vir : Finset Ω := Finset.univ.filter (fun x => hole x = false)
    let dom : Char → Finset Ω := fun c => if c = 'o' then occ.filter (fun x => alpha x = true) else if c = 'v' then vir.filter (fun x => alpha x = true)
      else if c = 'O' then occ.filter (fun x => alpha x = false) else vir.filter (fun x => alpha x = false)
    let v : OrbSystem Ω R (Module.End R (FockSpace Ω R)) := ⟨fun s => dom (if s = 0 then 'o' else if s = 1 then 'v' else if s = 2 then 'O' else 'V'), tensor, fockOp R hole⟩
    v.Antisymmetric → (∀ lab, ConservesSpin alpha (tensor lab)) → (∀ lab key l u, l.length = u.length → arr lab key (u ++ l) = tensor lab l u) →
    let N := normalProd hole (fockOp R hole)
    let H := manyBody (tensor ['H']) N 1 Finset.univ Finset.univ + manyBody (tensor ['H']) N 2 Finset.univ Finset.univ
    let T := manyBody (tensor ['T']) N 1 vir occ + manyBody (tensor ['T']) N 2 vir occ + if triples then manyBody (tensor ['T']) N 3 vir occ else 0
    ∃ E e m, spinHbar o triples = .ok E ∧ contractExpr o cfg (Rational.ofInt 1) E minr maxr = .ok e ∧ e.toManybody o ['R'] = .ok m ∧
      ∀ (n k : Nat → Nat) (nocc nvir : Nat), nocc = (repeatLabels o n).length → nvir = (repeatLabels o k).length → minr ≤ nocc + nvir → nocc + nvir ≤ maxr →
      (∃ text r, generateEquationSpace o fmt m nocc nvir (spaceKey o n k) = .ok text ∧
        ReturnsArray arr dom text ("evaluate_residual_".toList ++ (repeatLabels o n ++ repeatLabels o k))
          (if nocc + nvir = 0 then none else some (List.replicate nocc "nocc".toList ++ List.replicate nvir "nvir".toList)) r ∧
        ∀ u l : List Ω, List.Forall₂ (· ∈ ·) u ((repeatLabels o n).map dom) → List.Forall₂ (· ∈ ·) l ((repeatLabels o k).map dom) → (∀ x ∈ u, hole x = true) → (∀ x ∈ l, hole x = false) →
          abv (antisymmetrized (repeatLabels o n) (repeatLabels o k) r u l - fockExpectation R (bra (fockOp R hole) u l * (IsNilpotent.exp (-T) * H * IsNilpotent.exp T))) ≤
            1 / 10 ^ 9 * (e.map (fun p => abv (fockExpectation R (bra (fockOp R hole) u l * v.normalValue hole p.1)))).sum) ∨
      (generateEquationSpace o fmt m nocc nvir (spaceKey o n k) = .error .throw ∧
        ∀ u l : List Ω, List.Forall₂ (· ∈ ·) u ((repeatLabels o n).map dom) → List.Forall₂ (· ∈ ·) l ((repeatLabels o k).map dom) → (∀ x ∈ u, hole x = true) → (∀ x ∈ l, hole x = false) →
          fockExpectation R (bra (fockOp R hole) u l * (IsNilpotent.exp (-T) * H * IsNilpotent.exp T)) = 0) := by
  intro o occ vir dom v hv hspin harr N H T
  have hlen : o.spaces.length = 4 := by decide +kernel
  have h8 : o.spaces.length ≤ 8 := by omega
  have hvdom : ∀ s : Nat, s < 4 → v.dom s = spinOrbs hole alpha s := by
    intro s hs
    interval_cases s <;> (ext x; simp [v, dom, occ, vir, spinOrbs])
  obtain ⟨c1, c2, c3, c4, c5⟩ := spin_cluster triples
  obtain ⟨hn, hvac⟩ := names_spin (R := R) tensor hole alpha v.dom hvdom
  obtain ⟨FH, FT, e0, eH, eT, hin, -, -, -, vH, vT⟩ := cc_program (cfg := cfg) (Hp := hamProg) (Tp := clusterProg 1 (if triples then [2, 3] else [2])) (ord := 4) spinNotebook spin_ok minr maxr h8 ⟨trivial, trivial⟩ c1 (by decide) c2
    (by intro lab hl
        rcases List.mem_append.1 hl with hl | hl
        · left; exact (by decide : ∀ lab ∈ hamProg.labels, lab = ['H']) lab hl
        · exact c3 lab hl)
    (by show hamProg.numOps + 4 * _ ≤ 52
        have : hamProg.numOps = 4 := by decide
        omega)
    (by show hamProg.perSpace letters4 + 4 * _ ≤ 32
        have : hamProg.perSpace letters4 = 4 := by decide
        omega) v hole hn hv (fock_car hole) hvac
  obtain ⟨EH, FH', mH, eH', sH, zH⟩ := spin_hops
  obtain ⟨ET, FT', mT, eT', sT, zT⟩ := spin_tops triples
  rw [eH] at eH'
  rw [eT] at eT'
  cases eH'
  cases eT'
  have bH := built_make mH
  have bT := built_make mT
  have hin' : CCInput o EH ET hamProg.numOps := CCInput.sub hin bH bT sH sT
  have cH := run_counts spinNotebook spin_ok h8 hn.nodup hn.alpha eH
  have cT := run_counts spinNotebook spin_ok h8 hn.nodup hn.alpha eT
  have fH := run_form spinNotebook spin_ok h8 hn.nodup hn.alpha (fun x => (x.label = ['H'] ∨ x.label = ['T']) ∧ ((List.range o.spaces.length).map x.gm.cre).sum = ((List.range o.spaces.length).map x.gm.ann).sum)
    ((gens_labels hamProg).mono (fun l _ _ _ h g s1 s2 => ⟨.inl ((by decide : ∀ lab ∈ hamProg.labels, lab = ['H']) l h), s1.2.2.trans s2.2.2.symm⟩)) eH
  have fT := run_form spinNotebook spin_ok h8 hn.nodup hn.alpha (fun x => (x.label = ['H'] ∨ x.label = ['T']) ∧ ((List.range o.spaces.length).map x.gm.cre).sum = ((List.range o.spaces.length).map x.gm.ann).sum)
    ((gens_labels (clusterProg 1 (if triples then [2, 3] else [2]))).mono (fun l _ _ _ h g s1 s2 => ⟨c3 l h, s1.2.2.trans s2.2.2.symm⟩)) eT
  have hsr : ∀ s : Nat, s < o.spaces.length → o.spaceType s ≠ .ok .general := by
    intro s hs hg
    rcases hvac.kind s hs with ⟨h, _⟩ | ⟨h, _⟩ <;> rw [hg] at h <;> cases h
  obtain ⟨e, he, hcard, htens⟩ := cc_expr (cfg := cfg) (a := 4) (b := 6) (a' := 4) (b' := 3) (ord := 4) h8 hsr minr maxr hin'
    (fun q hq => ⟨(cH q (sH q hq)).1.trans (by decide), fun s hs => ((cH q (sH q hq)).2 s hs).trans (by decide)⟩)
    (fun q hq => ⟨(cT q (sT q hq)).1.trans (by exact_mod_cast c4), fun s hs => ((cT q (sT q hq)).2 s hs).trans (by exact_mod_cast c5)⟩) (by decide) (by decide)
    (by rintro x (⟨q, hq, hx⟩ | ⟨q, hq, hx⟩)
        · exact (fH q (sH q hq)).2 x hx
        · exact (fT q (sT q hq)).2 x hx)
  have ha : ∀ s : Nat, s < 4 → ∀ x ∈ v.dom s, alpha x = decide (s < 2) := by
    intro s hs x hx
    rw [hvdom s hs] at hx
    have := (Finset.mem_filter.1 hx).2.2
    rw [this, decide_eq_decide]
    omega
  have hvalidT : ∀ x, OpsOf FT x → x.Valid o.spaces.length := fun x hx => (hin.excT x hx).1.1
  have wH : v.exprValue hole o.spaces.length EH = H := by
    have := value_sub hole ha hspin bH hin.builtH (fun q hq x hx => ⟨by rw [← hlen]; exact hin.validH x ⟨q, hq, hx⟩, by have := ((fH q hq).2 x hx).2; rwa [hlen] at this⟩) sH zH
    rw [hlen, this, ← hlen, vH]
    rfl
  have wT : v.exprValue hole o.spaces.length ET = T := by
    have := value_sub hole ha hspin bT hin.builtT (fun q hq x hx => ⟨by rw [← hlen]; exact hvalidT x ⟨q, hq, hx⟩, by have := ((fT q hq).2 x hx).2; rwa [hlen] at this⟩) sT zT
    rw [hlen, this, ← hlen, vT, cluster_meaning]
    have e1 : (if (2 : Fin 3) = 0 then Finset.univ else Finset.univ.filter (fun x => hole x = decide ((2 : Fin 3) = 1))) = vir := by simp [vir]
    have e2 : (if (1 : Fin 3) = 0 then Finset.univ else Finset.univ.filter (fun x => hole x = decide ((1 : Fin 3) = 1))) = occ := by simp [occ]
    rw [e1, e2]
    cases triples
    · show (List.map _ [1, 2]).sum = _ + _ + 0
      simp only [List.map_cons, List.map_nil, List.sum_cons, List.sum_nil, add_zero]
      rfl
    · show (List.map _ [1, 2, 3]).sum = _ + _ + manyBody _ _ _ _ _
      simp only [List.map_cons, List.map_nil, List.sum_cons, List.sum_nil, add_zero, add_assoc]
      rfl
  have hdom : ∀ (n : Nat) s, o.spaces[n]? = some s → dom s.label = v.dom n := by
    intro n s hs
    have hlt : n < 4 := by rw [← hlen]; exact (List.getElem?_eq_some_iff.1 hs).1
    have h1 : (o.spaces.map (·.label))[n]? = some s.label := by rw [List.getElem?_map, hs]; rfl
    have h2 : o.spaces.map (·.label) = ['o', 'v', 'O', 'V'] := by decide +kernel
    rw [h2] at h1
    interval_cases n <;> (simp at h1; simp [v, ← h1])
  obtain ⟨m, hm, h⟩ := C85_residual_space_error_partial abv habv spinNotebook spin_names spin_alpha hfmt h8 hin' (by decide : ((hamProg.numOps : Nat) : Int) ≤ ((4 : Nat) : Int)) he hcard (fun p hp y hy => (htens p hp y hy).1) v arr dom hole (fockExpectation R) hv (fock_car hole) hvac
    (fock_expectation hole) (fun p hp y hy l u hl hu => harr _ _ l u (by rw [hl, hu, (htens p hp y hy).2])) hdom
  rw [wH, wT] at h
  refine ⟨_, e, m, ?_, he, hm, h⟩
  unfold spinHbar
  rw [mT, mH]
  rfl
end

/-- spin up are the orbitals 0 and 1; the orbitals 0 and 2 are occupied -/
def alpha4 (x : Fin 4) : Bool := x.val < 2

/-- the tensors of `tensor4`, without the elements that change the spin -/
def tensorSpin (lab : Str) (l u : List (Fin 4)) : ℚ := if l.countP alpha4 = u.countP alpha4 then tensor4 lab l u else 0

theorem tensorSpin_anti (dom : Int → Finset (Fin 4)) : (⟨dom, tensorSpin, fockOp ℚ spinHole⟩ : OrbSystem (Fin 4) ℚ (Module.End ℚ (FockSpace (Fin 4) ℚ))).Antisymmetric := by
  intro lab
  have h := tensor4_anti dom lab
  refine ⟨fun pre a b post u => ?_, fun l pre a b post => ?_⟩
  · show tensorSpin _ _ _ = -tensorSpin _ _ _
    have h := h.1 pre a b post u
    have h : tensor4 lab _ _ = -tensor4 lab _ _ := h
    have e : (pre ++ b :: a :: post).countP alpha4 = (pre ++ a :: b :: post).countP alpha4 := List.Perm.countP_eq _ (List.Perm.append_left _ (List.Perm.swap _ _ _))
    unfold tensorSpin
    rw [h, e]
    split <;> simp
  · show tensorSpin _ _ _ = -tensorSpin _ _ _
    have h := h.2 l pre a b post
    have h : tensor4 lab _ _ = -tensor4 lab _ _ := h
    have e : (pre ++ b :: a :: post).countP alpha4 = (pre ++ a :: b :: post).countP alpha4 := List.Perm.countP_eq _ (List.Perm.append_left _ (List.Perm.swap _ _ _))
    unfold tensorSpin
    rw [h, e]
    split <;> simp

def arrSpin (lab _key : Str) (x : List (Fin 4)) : ℚ := tensorSpin lab (x.drop (x.length / 2)) (x.take (x.length / 2))

theorem arrSpin_eq (lab key : Str) (l u : List (Fin 4)) (h : l.length = u.length) : arrSpin lab key (u ++ l) = tensorSpin lab l u := by
  unfold arrSpin
  rw [List.length_append, h, show (u.length + u.length) / 2 = u.length by omega]
  simp

-- all hypotheses hold for both notebooks with tensors that are not zero: they run to the end
example (triples : Bool) : ∃ E e m, spinHbar (runReg OSI.empty spinNotebook) triples = .ok E ∧ contractExpr (runReg OSI.empty spinNotebook) {} (Rational.ofInt 1) E 0 6 = .ok e ∧
    e.toManybody (runReg OSI.empty spinNotebook) ['R'] = .ok m := by
  obtain ⟨E, e, m, h1, h2, h3, _⟩ := C96_spin (R := ℚ) AbsoluteValue.abs (by intro c; simp) (fmt := cutAt 9) (cfg := {}) (triples := triples) (minr := 0) (maxr := 6) cut9_prints tensorSpin arrSpin spinHole alpha4
    (tensorSpin_anti _) (fun lab l u _ h => if_neg h) arrSpin_eq
  exact ⟨E, e, m, h1, h2, h3⟩

example : tensorSpin ['H'] [0, 2] [1, 3] = 4 := by decide +kernel

end Wick
end Wicked
