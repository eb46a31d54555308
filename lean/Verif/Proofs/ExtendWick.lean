import Verif.Proofs.ExtendCanon
import Verif.Proofs.WickProc
import Verif.Props.Wick
/-! # Registering more spaces keeps results (C71): Wick's theorem -/
namespace Wicked
open CppLt CppEq OSI Rational
namespace Wick

/-- nothing outside the first `n` spaces -/
def Below (n : Nat) (g : GraphMatrix) : Prop := ∀ s, n ≤ s → g.cre s = 0 ∧ g.ann s = 0

/-- all members of a list -/
def BelowL (n : Nat) (l : List GraphMatrix) : Prop := ∀ A, Below n (gmAt l A)

theorem below_zero (n : Nat) : Below n GraphMatrix.zero := fun s _ => ⟨by simp, by simp⟩

theorem belowL_of {n : Nat} {l : List GraphMatrix} (h : ∀ g ∈ l, Below n g) : BelowL n l := by
  intro A
  unfold gmAt
  rw [List.getD_eq_getElem?_getD]
  cases hA : l[A]? with
  | none => exact below_zero n
  | some g => exact h g (List.mem_of_getElem? hA)

theorem belowL_mem {n : Nat} {l : List GraphMatrix} (h : BelowL n l) : ∀ g ∈ l, Below n g := by
  intro g hg
  obtain ⟨A, hA⟩ := List.getElem?_of_mem hg
  have := h A
  unfold gmAt at this
  rw [List.getD_eq_getElem?_getD, hA] at this
  exact this

theorem belowL_nil (n : Nat) : BelowL n [] := belowL_of (by simp)

theorem below_op {n : Nat} {ops : OperatorProduct} (hv : ∀ p ∈ ops, p.Valid n) (A : Nat) : Below n (opAt ops A).gm := by
  intro s hs
  unfold opAt
  rw [List.getD_eq_getElem?_getD]
  cases hA : ops[A]? with
  | none => exact below_zero n s hs
  | some p => exact (hv p (List.mem_of_getElem? hA) s).2.2 hs

/-! ### lists of spaces -/

theorem range_grow (n k : Nat) : List.range (n + k) = List.range n ++ List.range' n k := by
  rw [List.range_eq_range', List.range_eq_range', ← List.range'_append_1]; simp

theorem mem_extra {n k s : Nat} : s ∈ List.range' n k → n ≤ s := fun h => by
  have := List.mem_range'_1.1 h; omega

/-! ### step 1 -/

theorem elemSpace_extra {o : OSI} {cfg : WickCfg} {ops : OperatorProduct} {n s : Nat} (hv : ∀ p ∈ ops, p.Valid n) (hs : n ≤ s)
    (hs' : s < o.spaces.length) : elemSpace o cfg ops s = .ok [] := by
  have h0 := fun A => below_op hv A s hs
  unfold elemSpace
  obtain ⟨t, ht⟩ := spaceType_ok o hs'
  rw [ht]
  cases t with
  | occupied =>
    show Except.ok (elemOccupied ops s) = _
    congr 1
    unfold elemOccupied
    simp [(h0 _).1]
  | unoccupied =>
    show Except.ok (elemUnoccupied ops s) = _
    congr 1
    unfold elemUnoccupied
    simp [(h0 _).1]
  | general =>
    show elemGeneral _ ops s = _
    unfold elemGeneral
    have hz : ∀ f : Nat → Int, (∀ A, f A = 0) → ∀ l : List Nat, l.foldl (fun r A => r + f A) 0 = 0 := by
      intro f hf l
      induction l with
      | nil => rfl
      | cons a l ih => rw [List.foldl_cons, hf]; exact ih
    rw [hz _ (fun A => (h0 A).1), hz _ (fun A => (h0 A).2)]
    have : intRange 1 (min (min 0 0) cfg.maxCumulant) = [] := by
      unfold intRange
      have : (min (min 0 0) cfg.maxCumulant + 1 - 1 : Int).toNat = 0 := by omega
      simp [this]
    dsimp only
    rw [this]
    rfl

theorem sim_elemSpace {o o' : OSI} (g : Grows o o') (cfg : WickCfg) (ops : OperatorProduct) (s : Nat) :
    Sim (· = ·) (elemSpace o cfg ops s) (elemSpace o' cfg ops s) :=
  (sim_spaceType g s).bindEq (fun _ => Sim.refl _)

theorem mapM_nil {α β : Type} (f : α → Res (List β)) (l : List α) (h : ∀ a ∈ l, f a = .ok []) :
    l.mapM (m := Except Fault) f = .ok (List.replicate l.length []) := by
  induction l with
  | nil => rfl
  | cons a l ih =>
    rw [List.mapM_cons, h a (by simp), ih (fun x hx => h x (by simp [hx]))]
    rfl

theorem sim_elementary {o o' : OSI} (g : Grows o o') (cfg : WickCfg) {ops : OperatorProduct} (hv : ∀ p ∈ ops, p.Valid o.spaces.length) :
    Sim (· = ·) (elementaryContractions o cfg ops) (elementaryContractions o' cfg ops) := by
  obtain ⟨k, hk⟩ := g.exists_k
  intro el hel
  refine ⟨el, ?_, rfl⟩
  unfold elementaryContractions at hel ⊢
  cases h1 : (List.range o.spaces.length).mapM (m := Except Fault) (elemSpace o cfg ops) with
  | error e => rw [h1] at hel; cases hel
  | ok r =>
    rw [h1] at hel
    obtain ⟨r', h2, rfl⟩ := Sim.mapMEq _ (fun s _ => sim_elemSpace g cfg ops s) r h1
    rw [hk, range_grow, List.mapM_append, h2, mapM_nil _ (List.range' o.spaces.length k)]
    · cases hel
      show Except.ok _ = _
      congr 1
      simp
    · intro s hs
      have := List.mem_range'_1.1 hs
      exact elemSpace_extra hv (by omega) (by omega)

/-! ### step 2 -/

theorem sub_grow {n k : Nat} {g h : GraphMatrix} (hh : Below n h) : g.sub (n + k) h = g.sub n h := by
  refine gm_ext2 (fun s _ => ?_) (fun s _ => ?_)
  · rw [GraphMatrix.cre_sub, GraphMatrix.cre_sub]
    by_cases h1 : s < n
    · rw [if_pos h1, if_pos (by omega)]
    · rw [if_neg h1, (hh s (by omega)).1]; simp
  · rw [GraphMatrix.ann_sub, GraphMatrix.ann_sub]
    by_cases h1 : s < n
    · rw [if_pos h1, if_pos (by omega)]
    · rw [if_neg h1, (hh s (by omega)).2]; simp

theorem add_grow {n k : Nat} {g h : GraphMatrix} (hh : Below n h) : g.add (n + k) h = g.add n h := by
  refine gm_ext2 (fun s _ => ?_) (fun s _ => ?_)
  · rw [GraphMatrix.cre_add, GraphMatrix.cre_add]
    by_cases h1 : s < n
    · rw [if_pos h1, if_pos (by omega)]
    · rw [if_neg h1, (hh s (by omega)).1]; simp
  · rw [GraphMatrix.ann_add, GraphMatrix.ann_add]
    by_cases h1 : s < n
    · rw [if_pos h1, if_pos (by omega)]
    · rw [if_neg h1, (hh s (by omega)).2]; simp

theorem below_sub {n : Nat} {g h : GraphMatrix} (hg : Below n g) : Below n (g.sub n h) := by
  intro s hs
  rw [GraphMatrix.cre_sub, GraphMatrix.ann_sub, if_neg (by omega), if_neg (by omega)]
  exact hg s hs

theorem below_add {n : Nat} {g h : GraphMatrix} (hg : Below n g) : Below n (g.add n h) := by
  intro s hs
  rw [GraphMatrix.cre_add, GraphMatrix.ann_add, if_neg (by omega), if_neg (by omega)]
  exact hg s hs

theorem take_grow {n k : Nat} {free : List GraphMatrix} {e : EContr} (he : BelowL n e) : takeLegs (n + k) free e = takeLegs n free e := by
  unfold takeLegs
  exact List.map_congr_left (fun A _ => sub_grow (he A))

theorem put_grow {n k : Nat} {free : List GraphMatrix} {e : EContr} (he : BelowL n e) : putLegs (n + k) free e = putLegs n free e := by
  unfold putLegs
  exact List.map_congr_left (fun A _ => add_grow (he A))

theorem below_take {n : Nat} {free : List GraphMatrix} {e : EContr} (hf : BelowL n free) : BelowL n (takeLegs n free e) := by
  refine belowL_of (fun g hg => ?_)
  obtain ⟨A, _, rfl⟩ := List.mem_map.1 hg
  exact below_sub (hf A)

theorem below_put {n : Nat} {free : List GraphMatrix} {e : EContr} (hf : BelowL n free) : BelowL n (putLegs n free e) := by
  refine belowL_of (fun g hg => ?_)
  obtain ⟨A, _, rfl⟩ := List.mem_map.1 hg
  exact below_add (hf A)

theorem fits_grow {n k : Nat} {free : List GraphMatrix} {e : EContr} (hf : BelowL n free) (he : BelowL n e) : fits (n + k) free e = fits n free e := by
  unfold fits
  congr 1
  funext A
  rw [range_grow, List.all_append, Bool.and_eq_left_iff_imp]
  intro _
  rw [List.all_eq_true]
  intro s hs
  rw [(hf A s (mem_extra hs)).1, (hf A s (mem_extra hs)).2, (he A s (mem_extra hs)).1, (he A s (mem_extra hs)).2]
  decide

theorem elAt_below {n : Nat} {el : List EContr} (hel : ∀ e ∈ el, BelowL n e) (c : Nat) : BelowL n (el.getD c []) := by
  rw [List.getD_eq_getElem?_getD]
  cases hc : el[c]? with
  | none => exact belowL_nil n
  | some e => exact hel e (List.mem_of_getElem? hc)

theorem sim_backtrack {n k : Nat} {el : List EContr} (hel : ∀ e ∈ el, BelowL n e) (minr maxr : Int) (fuel : Nat) :
    ∀ (a : List Int) (d : Nat) (free : List GraphMatrix) (out : List (List Int)), BelowL n free →
    Sim (fun r r' => r = r' ∧ BelowL n r.1) (backtrack n el minr maxr fuel a d free out) (backtrack (n + k) el minr maxr fuel a d free out) := by
  induction fuel with
  | zero => intro a d free out _; exact Sim.error
  | succ fuel ih =>
    intro a d free out hf
    rw [backtrack, backtrack]
    dsimp only
    have hcand : candidates (n + k) a (d + 1) el free = candidates n a (d + 1) el free := by
      have hfit : ∀ c, fits (n + k) free (el.getD c []) = fits n free (el.getD c []) := fun c => fits_grow hf (elAt_below hel c)
      unfold candidates
      simp only [hfit]
    rw [hcand]
    refine (Sim.refl _).bindEq (fun cs => ?_)
    refine Sim.bind (R := fun st st' => st = st' ∧ BelowL n st.2.1) (Sim.foldlM (R := fun (st st' : List Int × List GraphMatrix × List (List Int)) =>
      st = st' ∧ BelowL n st.2.1) cs ?_ _ _ ⟨rfl, hf⟩) (fun st st' h => Sim.pure ⟨by rw [h.1], h.2⟩)
    rintro c _ st _ ⟨rfl, hb⟩
    refine (Sim.refl _).bindEq (fun a1 => ?_)
    rw [take_grow (elAt_below hel _)]
    refine (ih a1 (d + 1) _ _ (below_take hb)).bind ?_
    rintro r _ ⟨rfl, hr⟩
    refine (Sim.refl _).bindEq (fun a2 => Sim.pure ⟨?_, ?_⟩)
    · rw [put_grow (elAt_below hel _)]
    · exact below_put hr

theorem sim_composite {n k : Nat} {ops : OperatorProduct} (hv : ∀ p ∈ ops, p.Valid n) {el : List EContr} (hel : ∀ e ∈ el, BelowL n e)
    (minr maxr : Int) : Sim (· = ·) (compositeContractions n ops el minr maxr) (compositeContractions (n + k) ops el minr maxr) := by
  unfold compositeContractions
  refine (sim_backtrack hel minr maxr _ _ _ _ _ (belowL_of ?_)).bind (fun r r' h => Sim.pure (by rw [h.1]))
  intro g hg
  obtain ⟨p, hp, rfl⟩ := List.mem_map.1 hg
  exact fun s hs => (hv p hp s).2.2 hs

/-! ### graph canonicalization -/

theorem commute_grow {n k : Nat} {cs : CContr} (hcs : ∀ e ∈ cs, BelowL n e) (i j : Nat) :
    contractionsCommute (n + k) i j cs = contractionsCommute n i j cs := by
  unfold contractionsCommute
  rw [Bool.eq_iff_iff, List.all_eq_true, List.all_eq_true]
  refine forall₂_congr (fun e he => ?_)
  rw [range_grow, List.all_append, Bool.and_eq_true, and_iff_left_iff_imp]
  intro _
  rw [List.all_eq_true]
  intro s hs
  split
  · rw [(hcs e he i s (mem_extra hs)).1, (hcs e he i s (mem_extra hs)).2]
    simp
  · rfl

theorem canonGraph_grow {n k : Nat} (ops : OperatorProduct) {cs : CContr} (hcs : ∀ e ∈ cs, BelowL n e) :
    canonicalizeGraph (n + k) ops cs = canonicalizeGraph n ops cs := by
  have h : ∀ p, opsPermValid ops p (fun i j => contractionsCommute (n + k) i j cs) = opsPermValid ops p (fun i j => contractionsCommute n i j cs) := by
    intro p
    congr 1
    funext i j
    exact commute_grow hcs i j
  unfold canonicalizeGraph graphs validOpsPerms
  simp only [h]

/-- the chosen graph keeps operators and contractions below -/
theorem canonGraph_below {n : Nat} {ops : OperatorProduct} (hv : ∀ p ∈ ops, p.Valid n) {cs : CContr} (hcs : ∀ e ∈ cs, BelowL n e) {r}
    (h : canonicalizeGraph n ops cs = .ok r) : (∀ p ∈ r.1, p.Valid n) ∧ ∀ e ∈ r.2.1, BelowL n e := by
  unfold canonicalizeGraph at h
  split at h
  · rename_i g _ _
    cases h
    refine ⟨?_, ?_⟩
    · intro p hp
      obtain ⟨i, _, rfl⟩ := List.mem_map.1 hp
      unfold opAt
      rw [List.getD_eq_getElem?_getD]
      cases hA : ops[i.toNat]? with
      | none => intro s; simp
      | some p => exact hv p (List.mem_of_getElem? hA)
    · intro e he
      obtain ⟨c, _, rfl⟩ := List.mem_map.1 he
      refine belowL_of (fun x hx => ?_)
      obtain ⟨i, _, rfl⟩ := List.mem_map.1 hx
      exact elAt_below hcs c.toNat i.toNat
  · cases h

/-! ### step 3 -/

/-- relation between layouts: counters padded, and every operator written belongs to the first `n` spaces -/
def PadLay (n k : Nat) (s s' : Layout) : Prop :=
  Padded n k s.ic s'.ic ∧ s'.sqops = s.sqops ∧ s'.opMap = s.opMap ∧ s'.idx = s.idx ∧ ∀ a ∈ s.sqops, 0 ≤ a.index.space ∧ a.index.space < n

theorem sim_layStep {n k : Nat} (o s : Nat) (ty : SQType) (c : Int) {st st' : Layout} (h : PadLay n k st st') :
    Sim (PadLay n k) (layStep o s ty c st) (layStep o s ty c st') := by
  obtain ⟨h1, h2, h3, h4, h5⟩ := h
  unfold layStep
  refine Sim.bind' (sim_incr_get h1 (s : Int)) (fun a b ha hab => Sim.pure ?_)
  have hg : st'.ic.getD s 0 = st.ic.getD s 0 := by simpa using hab.2
  refine ⟨hab.1, by dsimp only; rw [h2, hg], by dsimp only; rw [h2, h3], by dsimp only; rw [h4, hg], ?_⟩
  intro x hx
  rcases List.mem_append.1 hx with hx | hx
  · exact h5 x hx
  · rw [List.mem_singleton.1 hx]
    have := ((incr_ok_iff _ _ _).1 ha).1
    rw [h1.1] at this
    dsimp only
    omega

theorem foldlM_skip {α β : Type} (f : β → α → Res β) (l : List α) (h : ∀ a ∈ l, ∀ b, f b a = .ok b) (b : β) : l.foldlM f b = .ok b := by
  induction l generalizing b with
  | nil => rfl
  | cons a l ih =>
    rw [List.foldlM_cons, h a (by simp) b]
    exact ih (fun x hx => h x (by simp [hx])) b

theorem intRange_empty : intRange 0 (0 - 1) = [] := by decide

theorem sim_layOp {n k : Nat} (o : Nat) {op : Operator} (hv : op.Valid n) {st st' : Layout} (h : PadLay n k st st') :
    Sim (fun r r' => PadLay n k r.1 r'.1 ∧ r.2 = r'.2) (layOp n o op st) (layOp (n + k) o op st') := by
  have hinit : ∀ {s s' : Layout}, PadLay n k s s' → PadLay n k { s with idx := [] } { s' with idx := [] } :=
    fun h => ⟨h.1, h.2.1, h.2.2.1, rfl, h.2.2.2.2⟩
  unfold layOp
  dsimp only
  rw [range_grow]
  refine Sim.bind (R := PadLay n k) ?_ (fun s s' hs => ?_)
  · rw [List.foldlM_append]
    intro r hr
    obtain ⟨r', h1, h2⟩ := Sim.foldlM (R := PadLay n k) (List.range n) (fun s _ a b hab =>
      Sim.foldlM (R := PadLay n k) (intRange 0 (op.gm.cre s - 1)) (fun c _ a b hab => sim_layStep o s .creation c hab) a b hab) _ _ (hinit h) r hr
    refine ⟨r', ?_, h2⟩
    rw [h1]
    show List.foldlM _ r' _ = _
    apply foldlM_skip
    intro s hs b
    rw [((hv s).2.2 (mem_extra hs)).1, intRange_empty]
    rfl
  · refine Sim.bind (R := PadLay n k) ?_ (fun t t' ht => Sim.pure ⟨ht, ?_⟩)
    · rw [List.reverse_append, List.foldlM_append]
      have hskip : (List.range' n k).reverse.foldlM (fun (st : Layout) (s : Nat) =>
          (intRange 0 (op.gm.ann s - 1)).reverse.foldlM (fun st a => layStep o s .annihilation a st) st) { s' with idx := [] } = .ok { s' with idx := [] } := by
        apply foldlM_skip
        intro x hx b
        rw [((hv x).2.2 (mem_extra (List.mem_reverse.1 hx))).2, intRange_empty]
        rfl
      rw [hskip]
      exact Sim.foldlM (R := PadLay n k) (List.range n).reverse (fun s _ a b hab =>
        Sim.foldlM (R := PadLay n k) (intRange 0 (op.gm.ann s - 1)).reverse (fun c _ a b hab => sim_layStep o s .annihilation c hab) a b hab) _ _ (hinit hs)
    · rw [hs.2.2.2.1, ht.2.2.2.1]

theorem sim_layOps {n k : Nat} {ops : OperatorProduct} (hv : ∀ p ∈ ops, p.Valid n) : ∀ (o : Nat) {st st' : Layout} (ts : List Tensor),
    PadLay n k st st' → Sim (fun r r' => PadLay n k r.1 r'.1 ∧ r.2 = r'.2) (layOps n o ops st ts) (layOps (n + k) o ops st' ts) := by
  induction ops with
  | nil => intro o st st' ts h; exact Sim.ok ⟨h, rfl⟩
  | cons p ops ih =>
    intro o st st' ts h
    rw [layOps, layOps]
    refine (sim_layOp o (hv p (by simp)) h).bind (fun r r' hr => ?_)
    rw [hr.2]
    exact ih (fun q hq => hv q (by simp [hq])) (o + 1) _ hr.1

theorem sim_tensorsSqops {n k : Nat} {ops : OperatorProduct} (hv : ∀ p ∈ ops, p.Valid n) :
    Sim (fun r r' => r = r' ∧ ∀ a ∈ r.2.1, 0 ≤ a.index.space ∧ a.index.space < (n : Int)) (tensorsSqops n ops) (tensorsSqops (n + k) ops) := by
  unfold tensorsSqops
  refine (sim_layOps (k := k) hv 0 (st := ⟨List.replicate n 0, [], [], []⟩) (st' := ⟨List.replicate (n + k) 0, [], [], []⟩) []
    ⟨padded_zero rfl, rfl, rfl, rfl, by simp⟩).bind (fun r r' h => Sim.pure ?_)
  exact ⟨by rw [h.2, h.1.2.1, h.1.2.2.1], h.1.2.2.2.2⟩

theorem space0_grow {n k : Nat} {e : EContr} (he : BelowL n e) : e.space0 (n + k) = e.space0 n := by
  have : EContr.spaces (n + k) e = EContr.spaces n e := by
    unfold EContr.spaces
    rw [List.flatMap_def, List.flatMap_def]
    congr 1
    apply List.map_congr_left
    intro g hg
    rw [range_grow, List.filter_append]
    rw [show (List.range' n k).filter (fun s => decide (g.ann s + g.cre s > 0)) = [] from ?_, List.append_nil]
    rw [List.filter_eq_nil_iff]
    intro s hs
    rw [(belowL_mem he g hg s (mem_extra hs)).1, (belowL_mem he g hg s (mem_extra hs)).2]
    decide
  unfold EContr.space0
  rw [this]

theorem sim_evalStep {o o' : OSI} (g : Grows o o') (sqops : List SQOp) (om : OpMap) (st : EvalSt) {e : EContr} (he : BelowL o.spaces.length e) :
    Sim (· = ·) (evalStep o sqops om st e) (evalStep o' sqops om st e) := by
  obtain ⟨k, hk⟩ := g.exists_k
  unfold evalStep elementsToPos
  dsimp only
  rw [hk, space0_grow he]
  refine (Sim.refl _).bindEq (fun s => (Sim.refl _).bindEq (fun p => (Sim.refl _).bindEq (fun q => (Sim.refl _).bindEq (fun m =>
    (Sim.refl _).bindEq (fun m' => (sim_spaceType g s).bindEq (fun t => Sim.refl _))))))

theorem orderRest_grow {n k : Nat} {sqops : List SQOp} (h : ∀ a ∈ sqops, 0 ≤ a.index.space ∧ a.index.space < n) (st : List Int × Int) :
    orderRest (n + k) sqops st = orderRest n sqops st := by
  unfold orderRest
  congr 1
  funext st ty
  rw [range_grow, List.foldl_append]
  generalize List.foldl _ st (List.range n) = r
  have hskip : ∀ (l : List Nat), (∀ s ∈ l, n ≤ s) → l.foldl (fun st (s : Nat) =>
      (List.range sqops.length).foldl (init := st) (fun st i =>
        match sqops[i]? with
        | some a =>
          if st.1.getD i 0 = -1 ∧ a.index.space = (s : Int) ∧ a.type = ty then
            (st.1.set i st.2, st.2 + 1)
          else st
        | none => st)) r = r := by
    intro l
    induction l with
    | nil => intro _; rfl
    | cons s l ih =>
      intro hl
      rw [List.foldl_cons]
      have hin : ∀ m : List Nat, m.foldl (fun (st : List Int × Int) i =>
          match sqops[i]? with
          | some a =>
            if st.1.getD i 0 = -1 ∧ a.index.space = (s : Int) ∧ a.type = ty then
              (st.1.set i st.2, st.2 + 1)
            else st
          | none => st) r = r := by
        intro m
        induction m with
        | nil => rfl
        | cons i m ihm =>
          rw [List.foldl_cons]
          cases hi : sqops[i]? with
          | none => exact ihm
          | some a =>
            have h1 := h a (List.mem_of_getElem? hi)
            have h2 := hl s (by simp)
            dsimp only
            rw [if_neg (by omega)]
            exact ihm
      rw [hin]
      exact ih (fun x hx => hl x (by simp [hx]))
  exact hskip _ (fun s hs => mem_extra hs)

theorem mul_one_canon {f : Rational} (hf : Canon f) : Rational.mul f (Rational.ofInt 1) = f := by
  apply toRat_inj (canon_mul hf (canon_ofInt 1)) hf
  rw [toRat_mul, toRat_ofInt]; simp

theorem div_one_canon {f : Rational} (hf : Canon f) : Rational.div f (Rational.ofInt 1) = f := by
  apply toRat_inj (canon_div hf (by decide)) hf
  rw [toRat_div, toRat_ofInt]; simp

theorem foldl_div_canon (f : Nat → Int) (l : List Nat) : ∀ r : Rational, Canon r →
    Canon (l.foldl (fun r s => Rational.div r (Rational.ofInt (factorial (f s)))) r) := by
  induction l with
  | nil => intro r hr; exact hr
  | cons a l ih => intro r hr; exact ih _ (canon_div hr (factorial_pos _))

theorem foldl_div_skip (f : Nat → Int) (l : List Nat) (h : ∀ s ∈ l, f s = 0) : ∀ r : Rational, Canon r →
    l.foldl (fun r s => Rational.div r (Rational.ofInt (factorial (f s)))) r = r := by
  induction l with
  | nil => intro r _; rfl
  | cons a l ih =>
    intro r hr
    rw [List.foldl_cons, h a (by simp), show factorial 0 = 1 by decide, div_one_canon hr]
    exact ih (fun s hs => h s (by simp [hs])) r hr

theorem foldl_div_grow (f : Nat → Int) {n k : Nat} (h : ∀ s, n ≤ s → f s = 0) {r : Rational} (hr : Canon r) :
    (List.range (n + k)).foldl (fun r s => Rational.div r (Rational.ofInt (factorial (f s)))) r =
    (List.range n).foldl (fun r s => Rational.div r (Rational.ofInt (factorial (f s)))) r := by
  rw [range_grow, List.foldl_append]
  exact foldl_div_skip f _ (fun s hs => h s (mem_extra hs)) _ (foldl_div_canon f _ _ hr)

theorem factor_grow {n k : Nat} {p : Operator} (hv : p.Valid n) : p.factor (n + k) = p.factor n := by
  unfold Operator.factor
  dsimp only
  rw [foldl_div_grow (fun s => p.gm.cre s) (fun s hs => ((hv s).2.2 hs).1) (canon_ofInt 1),
    foldl_div_grow (fun s => p.gm.ann s) (fun s hs => ((hv s).2.2 hs).2) (foldl_div_canon _ _ _ (canon_ofInt 1))]

theorem foldl_bin_canon (g h : GraphMatrix) (l : List Nat) : ∀ f : Rational, Canon f →
    Canon (l.foldl (fun f s => Rational.mul (Rational.mul f (Rational.ofInt (binomial (h.cre s) (g.cre s))))
      (Rational.ofInt (binomial (h.ann s) (g.ann s)))) f) := by
  induction l with
  | nil => intro f hf; exact hf
  | cons a l ih => intro f hf; exact ih _ (canon_mul (canon_mul hf (canon_ofInt _)) (canon_ofInt _))

theorem foldl_bin_skip (g h : GraphMatrix) (l : List Nat) (hz : ∀ s ∈ l, h.cre s = 0 ∧ h.ann s = 0 ∧ g.cre s = 0 ∧ g.ann s = 0) :
    ∀ f : Rational, Canon f → l.foldl (fun f s => Rational.mul (Rational.mul f (Rational.ofInt (binomial (h.cre s) (g.cre s))))
      (Rational.ofInt (binomial (h.ann s) (g.ann s)))) f = f := by
  induction l with
  | nil => intro f _; rfl
  | cons a l ih =>
    intro f hf
    obtain ⟨h1, h2, h3, h4⟩ := hz a (by simp)
    rw [List.foldl_cons, h1, h2, h3, h4, show binomial 0 0 = 1 by decide, mul_one_canon hf, mul_one_canon hf]
    exact ih (fun s hs => hz s (by simp [hs])) f hf

theorem foldl_bin_grow {n k : Nat} {g h : GraphMatrix} (hg : Below n g) (hh : Below n h) {f : Rational} (hf : Canon f) :
    (List.range (n + k)).foldl (fun f s => Rational.mul (Rational.mul f (Rational.ofInt (binomial (h.cre s) (g.cre s))))
      (Rational.ofInt (binomial (h.ann s) (g.ann s)))) f =
    (List.range n).foldl (fun f s => Rational.mul (Rational.mul f (Rational.ofInt (binomial (h.cre s) (g.cre s))))
      (Rational.ofInt (binomial (h.ann s) (g.ann s)))) f := by
  rw [range_grow, List.foldl_append]
  exact foldl_bin_skip g h _ (fun s hs => ⟨(hh s (mem_extra hs)).1, (hh s (mem_extra hs)).2, (hg s (mem_extra hs)).1, (hg s (mem_extra hs)).2⟩) _
    (foldl_bin_canon g h _ _ hf)

theorem belowL_set {n : Nat} {l : List GraphMatrix} (h : BelowL n l) (v : Nat) {g : GraphMatrix} (hg : Below n g) : BelowL n (l.set v g) := by
  refine belowL_of (fun x hx => ?_)
  rcases List.mem_or_eq_of_mem_set hx with hx | rfl
  · exact belowL_mem h x hx
  · exact hg

theorem combBinomials_grow {n k : Nat} {free : List GraphMatrix} (hf : BelowL n free) {cs : CContr} (hcs : ∀ e ∈ cs, BelowL n e) :
    combBinomials (n + k) free cs = combBinomials n free cs := by
  have inner : ∀ (e : EContr), BelowL n e → ∀ (l : List Nat) (st : Rational × List GraphMatrix), Canon st.1 → BelowL n st.2 →
      l.foldl (fun (st : Rational × List GraphMatrix) v =>
        ((List.range (n + k)).foldl (fun f s =>
          Rational.mul (Rational.mul f (Rational.ofInt (binomial ((gmAt st.2 v).cre s) ((gmAt e v).cre s))))
            (Rational.ofInt (binomial ((gmAt st.2 v).ann s) ((gmAt e v).ann s)))) st.1, st.2.set v ((gmAt st.2 v).sub (n + k) (gmAt e v)))) st =
      l.foldl (fun (st : Rational × List GraphMatrix) v =>
        ((List.range n).foldl (fun f s =>
          Rational.mul (Rational.mul f (Rational.ofInt (binomial ((gmAt st.2 v).cre s) ((gmAt e v).cre s))))
            (Rational.ofInt (binomial ((gmAt st.2 v).ann s) ((gmAt e v).ann s)))) st.1, st.2.set v ((gmAt st.2 v).sub n (gmAt e v)))) st ∧
      Canon (l.foldl (fun (st : Rational × List GraphMatrix) v =>
        ((List.range n).foldl (fun f s =>
          Rational.mul (Rational.mul f (Rational.ofInt (binomial ((gmAt st.2 v).cre s) ((gmAt e v).cre s))))
            (Rational.ofInt (binomial ((gmAt st.2 v).ann s) ((gmAt e v).ann s)))) st.1, st.2.set v ((gmAt st.2 v).sub n (gmAt e v)))) st).1 ∧
      BelowL n (l.foldl (fun (st : Rational × List GraphMatrix) v =>
        ((List.range n).foldl (fun f s =>
          Rational.mul (Rational.mul f (Rational.ofInt (binomial ((gmAt st.2 v).cre s) ((gmAt e v).cre s))))
            (Rational.ofInt (binomial ((gmAt st.2 v).ann s) ((gmAt e v).ann s)))) st.1, st.2.set v ((gmAt st.2 v).sub n (gmAt e v)))) st).2 := by
    intro e he l
    induction l with
    | nil => intro st h1 h2; exact ⟨rfl, h1, h2⟩
    | cons v l ih =>
      intro st h1 h2
      simp only [List.foldl_cons]
      rw [foldl_bin_grow (he v) (h2 v) h1, sub_grow (he v)]
      exact ih _ (foldl_bin_canon _ _ _ _ h1) (belowL_set h2 v (below_sub (h2 v)))
  have outer : ∀ (cs : CContr), (∀ e ∈ cs, BelowL n e) → ∀ (st : Rational × List GraphMatrix), Canon st.1 → BelowL n st.2 →
      cs.foldl (fun st e => (List.range e.length).foldl (fun (st : Rational × List GraphMatrix) v =>
        ((List.range (n + k)).foldl (fun f s =>
          Rational.mul (Rational.mul f (Rational.ofInt (binomial ((gmAt st.2 v).cre s) ((gmAt e v).cre s))))
            (Rational.ofInt (binomial ((gmAt st.2 v).ann s) ((gmAt e v).ann s)))) st.1, st.2.set v ((gmAt st.2 v).sub (n + k) (gmAt e v)))) st) st =
      cs.foldl (fun st e => (List.range e.length).foldl (fun (st : Rational × List GraphMatrix) v =>
        ((List.range n).foldl (fun f s =>
          Rational.mul (Rational.mul f (Rational.ofInt (binomial ((gmAt st.2 v).cre s) ((gmAt e v).cre s))))
            (Rational.ofInt (binomial ((gmAt st.2 v).ann s) ((gmAt e v).ann s)))) st.1, st.2.set v ((gmAt st.2 v).sub n (gmAt e v)))) st) st := by
    intro cs
    induction cs with
    | nil => intro _ st _ _; rfl
    | cons e cs ih =>
      intro hcs st h1 h2
      rw [List.foldl_cons, List.foldl_cons]
      obtain ⟨a, b, c⟩ := inner e (hcs e (by simp)) (List.range e.length) st h1 h2
      rw [a]
      exact ih (fun x hx => hcs x (by simp [hx])) _ b c
  exact outer cs hcs _ (canon_ofInt 1) hf

theorem ops_belowL {n : Nat} {ops : OperatorProduct} (hv : ∀ p ∈ ops, p.Valid n) : BelowL n (ops.map Operator.gm) := by
  refine belowL_of (fun g hg => ?_)
  obtain ⟨p, hp, rfl⟩ := List.mem_map.1 hg
  exact fun s hs => (hv p hp s).2.2 hs

theorem combFactor_grow {n k : Nat} {ops : OperatorProduct} (hv : ∀ p ∈ ops, p.Valid n) {cs : CContr} (hcs : ∀ e ∈ cs, BelowL n e) :
    combFactor (n + k) ops cs = combFactor n ops cs := by
  unfold combFactor
  rw [combBinomials_grow (ops_belowL hv) hcs]

theorem opFactors_grow {n k : Nat} {ops : OperatorProduct} (hv : ∀ p ∈ ops, p.Valid n) : ∀ f : Rational, opFactors (n + k) ops f = opFactors n ops f := by
  unfold opFactors
  induction ops with
  | nil => intro f; rfl
  | cons p ops ih =>
    intro f
    rw [List.foldl_cons, List.foldl_cons, factor_grow (hv p (by simp))]
    exact ih (fun q hq => hv q (by simp [hq])) _

theorem sim_evalCore {o o' : OSI} (g : Grows o o') {ops : OperatorProduct} (hv : ∀ p ∈ ops, p.Valid o.spaces.length) {cs : CContr}
    (hcs : ∀ e ∈ cs, BelowL o.spaces.length e) : Sim (· = ·) (evalCore o ops cs) (evalCore o' ops cs) := by
  obtain ⟨k, hk⟩ := g.exists_k
  unfold evalCore
  dsimp only
  rw [hk]
  refine (sim_tensorsSqops hv).bind ?_
  rintro ⟨ts, sq, om⟩ _ ⟨rfl, hsq⟩
  refine Sim.bind (R := (· = ·)) (Sim.foldlM (R := (· = ·)) cs ?_ _ _ rfl) ?_
  · rintro e he a _ rfl
    exact sim_evalStep g _ _ _ (hcs e he)
  · rintro st _ rfl
    rw [orderRest_grow hsq]
    exact Sim.refl _

theorem sim_evaluate {o o' : OSI} (g : Grows o o') {ops : OperatorProduct} (hv : ∀ p ∈ ops, p.Valid o.spaces.length) {cs : CContr}
    (hcs : ∀ e ∈ cs, BelowL o.spaces.length e) (f : Rational) : Sim (· = ·) (evaluate o ops cs f) (evaluate o' ops cs f) := by
  obtain ⟨k, hk⟩ := g.exists_k
  rw [evaluate_eq, evaluate_eq, hk, opFactors_grow hv, combFactor_grow hv hcs]
  exact (sim_evalCore g hv hcs).bindEq (fun _ => Sim.refl _)

theorem sim_processOne {o o' : OSI} (g : Grows o o') (cfg : WickCfg) {ops : OperatorProduct} (hv : ∀ p ∈ ops, p.Valid o.spaces.length) {cs : CContr}
    (hcs : ∀ e ∈ cs, BelowL o.spaces.length e) (f : Rational) : Sim (· = ·) (processOne o cfg ops cs f) (processOne o' cfg ops cs f) := by
  obtain ⟨k, hk⟩ := g.exists_k
  unfold processOne
  have tail : ∀ (b : OperatorProduct × CContr × Rational), (∀ p ∈ b.1, p.Valid o.spaces.length) → (∀ e ∈ b.2.1, BelowL o.spaces.length e) →
      Sim (· = ·) (do
        let (term, f) ← evaluate o b.1 b.2.1 (Rational.mul f b.2.2)
        let (term', cf) ← term.canonicalize o
        return (term', Rational.mul cf f)) (do
        let (term, f) ← evaluate o' b.1 b.2.1 (Rational.mul f b.2.2)
        let (term', cf) ← term.canonicalize o'
        return (term', Rational.mul cf f)) := by
    intro b h1 h2
    exact (sim_evaluate g h1 h2 _).bindEq (fun r => (sim_canonicalize g r.1).bindEq (fun _ => Sim.refl _))
  cases cfg.canonGraph with
  | true =>
    simp only [if_true]
    rw [hk, canonGraph_grow ops hcs]
    refine Sim.bind' (Sim.refl _) ?_
    rintro b _ hb rfl
    have := canonGraph_below hv hcs hb
    exact tail b this.1 this.2
  | false =>
    exact tail (ops, cs, Rational.ofInt 1) hv hcs

theorem pick_below {n : Nat} {el : List EContr} (hel : ∀ e ∈ el, BelowL n e) (cv : List Int) : ∀ e ∈ pick el cv, BelowL n e := by
  intro e he
  obtain ⟨c, _, rfl⟩ := List.mem_map.1 he
  exact elAt_below hel _

theorem good_belowL {n m : Nat} {l : List GraphMatrix} (h : Good n m l) : BelowL n l := by
  intro A
  by_cases hA : A < m
  · exact fun s hs => (h.2 A hA s).2.2 hs
  · unfold gmAt
    rw [List.getD_eq_getElem?_getD, List.getElem?_eq_none (by rw [h.1]; omega)]
    exact below_zero n

theorem sim_contract {o o' : OSI} (g : Grows o o') (h8 : o.spaces.length ≤ 8) (cfg : WickCfg) (f : Rational) {ops : OperatorProduct} (hv : ∀ p ∈ ops, p.Valid o.spaces.length)
    (minr maxr : Int) : Sim (· = ·) (contract o cfg f ops minr maxr) (contract o' cfg f ops minr maxr) := by
  obtain ⟨k, hk⟩ := g.exists_k
  unfold contract
  refine Sim.bind' (sim_elementary g cfg hv) ?_
  rintro el _ hel rfl
  have hb : ∀ e ∈ el, BelowL o.spaces.length e := fun e he => good_belowL (elementary_sizes h8 hv hel e he).1
  rw [hk]
  refine (sim_composite hv hb minr maxr).bindEq (fun cvs => ?_)
  split
  · unfold processContractions
    refine Sim.foldlM _ ?_ _ _ rfl
    rintro cv _ r _ rfl
    dsimp only
    split
    · exact (sim_processOne g cfg hv (pick_below hb cv) f).bindEq (fun _ => Sim.refl _)
    · exact Sim.refl _
  · unfold processThreads
    refine (Sim.mapMEq _ (fun cv _ => ?_)).bindEq (fun _ => Sim.refl _)
    unfold processSingle
    dsimp only
    split
    · exact (sim_processOne g cfg hv (pick_below hb cv) f).bindEq (fun _ => Sim.refl _)
    · exact Sim.refl _

theorem sim_contractExpr {o o' : OSI} (g : Grows o o') (h8 : o.spaces.length ≤ 8) (cfg : WickCfg) (f : Rational) {e : OpExpr}
    (hv : ∀ t ∈ e, ∀ p ∈ t.1, p.Valid o.spaces.length) (minr maxr : Int) :
    Sim (· = ·) (contractExpr o cfg f e minr maxr) (contractExpr o' cfg f e minr maxr) := by
  unfold contractExpr
  refine Sim.foldlM _ ?_ _ _ rfl
  rintro t ht r _ rfl
  exact (sim_contract g h8 cfg _ (hv t ht) minr maxr).bindEq (fun _ => Sim.refl _)

end Wick

/-! ## products of operators -/

theorem adjoint_grow {n k : Nat} {p : Operator} (hv : p.Valid n) : p.adjoint (n + k) = p.adjoint n := by
  unfold Operator.adjoint
  congr 1
  refine gm_ext (fun s h8 => ?_)
  unfold GraphMatrix.adjoint
  rw [gm_get_tab, gm_get_tab, if_pos h8, if_pos h8]
  by_cases h : s < n
  · rw [if_pos h, if_pos (by omega)]
  · rw [if_neg h, ((hv s).2.2 (by omega)).1, ((hv s).2.2 (by omega)).2]; simp

theorem productAdjoint_grow {n k : Nat} {ops : OperatorProduct} (hv : ∀ p ∈ ops, p.Valid n) :
    OperatorProduct.adjoint (n + k) ops = OperatorProduct.adjoint n ops := by
  unfold OperatorProduct.adjoint
  rw [List.map_congr_left (fun p hp => adjoint_grow (hv p hp))]

theorem doCommute_grow {n k : Nat} {a b : Operator} (ha : a.Valid n) : doOperatorsCommute (n + k) a b = doOperatorsCommute n a b := by
  unfold doOperatorsCommute
  dsimp only
  congr 1
  rw [Wick.range_grow, List.foldl_append]
  have : ∀ (l : List Nat), (∀ s ∈ l, n ≤ s) → ∀ x : Int, l.foldl (fun n s => n + (a.gm.ann s * b.gm.cre s + a.gm.cre s * b.gm.ann s)) x = x := by
    intro l
    induction l with
    | nil => intro _ x; rfl
    | cons s l ih =>
      intro h x
      rw [List.foldl_cons, ((ha s).2.2 (h s (by simp))).1, ((ha s).2.2 (h s (by simp))).2]
      simp only [Int.zero_mul, Int.add_zero]
      exact ih (fun y hy => h y (by simp [hy])) x
  exact this _ (fun s hs => Wick.mem_extra hs) _

theorem pass_grow {n k : Nat} : ∀ (m : Nat) (l : OperatorProduct) (c : Int), (∀ p ∈ l, p.Valid n) →
    OperatorProduct.pass (n + k) m l c = OperatorProduct.pass n m l c ∧ ∀ p ∈ (OperatorProduct.pass n m l c).1, p.Valid n := by
  intro m
  induction m with
  | zero => intro l c h; rw [OperatorProduct.pass, OperatorProduct.pass]; exact ⟨rfl, h⟩; all_goals simp
  | succ m ih =>
    intro l c h
    match l with
    | [] => exact ⟨rfl, h⟩
    | [a] => exact ⟨rfl, h⟩
    | a :: b :: l =>
      have ha := h a (by simp)
      have hb := h b (by simp)
      have hl : ∀ p ∈ l, p.Valid n := fun p hp => h p (by simp [hp])
      rw [OperatorProduct.pass, OperatorProduct.pass]
      have hless : operatorNoncommutingLess (n + k) b a = operatorNoncommutingLess n b a := by
        unfold operatorNoncommutingLess; rw [doCommute_grow hb]
      rw [hless]
      split
      · obtain ⟨h1, h2⟩ := ih (a :: l) (c + a.numOps * b.numOps) (by intro p hp; rcases List.mem_cons.1 hp with rfl | hp; exacts [ha, hl p hp])
        dsimp only
        rw [h1]
        exact ⟨rfl, by intro p hp; rcases List.mem_cons.1 hp with rfl | hp; exacts [hb, h2 p hp]⟩
      · obtain ⟨h1, h2⟩ := ih (b :: l) c (by intro p hp; rcases List.mem_cons.1 hp with rfl | hp; exacts [hb, hl p hp])
        dsimp only
        rw [h1]
        exact ⟨rfl, by intro p hp; rcases List.mem_cons.1 hp with rfl | hp; exacts [ha, h2 p hp]⟩

theorem passes_grow {n k : Nat} : ∀ (m : Nat) (l : OperatorProduct) (c : Int), (∀ p ∈ l, p.Valid n) →
    OperatorProduct.passes (n + k) m l c = OperatorProduct.passes n m l c := by
  intro m
  induction m with
  | zero => intro l c _; rfl
  | succ m ih =>
    intro l c h
    rw [OperatorProduct.passes, OperatorProduct.passes]
    obtain ⟨h1, h2⟩ := pass_grow (k := k) (m + 1) l c h
    rw [h1]
    exact ih _ _ h2

theorem productCanonicalize_grow {n k : Nat} {ops : OperatorProduct} (hv : ∀ p ∈ ops, p.Valid n) :
    OperatorProduct.canonicalize (n + k) ops = OperatorProduct.canonicalize n ops := by
  unfold OperatorProduct.canonicalize
  dsimp only
  rw [passes_grow _ _ _ hv]

end Wicked
