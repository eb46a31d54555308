import Verif.Spec.Fock
import Verif.Proofs.TermOrder
import Verif.Proofs.Lin
import Mathlib.Algebra.Algebra.Basic
import Mathlib.Tactic.NoncommRing
import Mathlib.Tactic.Module
namespace Wicked
open CppLt CppEq Rational STerm

theorem fieldType_ok {o : OSI} {i : Index} (h : i.Registered o) : ∃ f, o.fieldType i.space = .ok f := by
  unfold OSI.fieldType OSI.space
  rw [if_pos h.1, List.getElem?_eq_getElem h.2]
  exact ⟨_, rfl⟩

theorem not_fermion {o : OSI} {i : Index} {f : FieldType} (h : o.fieldType i.space = .ok f) (hf : f ≠ .fermion) :
    ¬ i.IsFermion o := by
  unfold Index.IsFermion; rw [h]; intro h'; cases h'; exact hf rfl

/-! ### adjacent pairs -/

theorem adjFind_some {α : Type} {p : α → α → Bool} : ∀ {l : List α} {pre post : List α} {a b : α},
    adjFind p l = some (pre, a, b, post) → l = pre ++ a :: b :: post ∧ p a b = true
  | [], _, _, _, _, h => by cases h
  | [_], _, _, _, _, h => by cases h
  | x :: y :: l, pre, post, a, b, h => by
    rw [adjFind] at h
    split at h
    · cases h; exact ⟨rfl, by assumption⟩
    · cases hr : adjFind p (y :: l) with
      | none => rw [hr] at h; cases h
      | some q =>
        rcases q with ⟨pre', x', y', post'⟩
        rw [hr] at h
        cases h
        obtain ⟨h1, h2⟩ := adjFind_some hr
        exact ⟨by rw [h1]; rfl, h2⟩

theorem adjFind_none {α : Type} {p : α → α → Bool} : ∀ {l : List α},
    adjFind p l = none ↔ List.IsChain (fun a b => p a b = false) l
  | [] => by simp [adjFind]
  | [_] => by simp [adjFind]
  | x :: y :: l => by
    rw [adjFind, List.isChain_cons_cons, ← adjFind_none]
    by_cases h : p x y = true
    · simp [h]
    · simp [h]; cases adjFind p (y :: l) <;> simp

theorem noAdj_spec {o : OSI} : ∀ {l : List SQOp}, (∀ a ∈ l, a.index.Registered o) →
    (noAdjacentIdentical o l = .ok true ∧ List.IsChain (fun a b => ¬ (a = b ∧ a.index.IsFermion o)) l) ∨
    (noAdjacentIdentical o l = .ok false ∧ ∃ pre a post, l = pre ++ a :: a :: post ∧ a.index.IsFermion o)
  | [], _ => Or.inl ⟨rfl, by simp⟩
  | [_], _ => Or.inl ⟨rfl, by simp⟩
  | x :: y :: l, h => by
    have ih := noAdj_spec (l := y :: l) (fun a ha => h a (List.mem_cons_of_mem _ ha))
    rw [noAdjacentIdentical]
    by_cases hxy : x = y
    · have he : CppEq.eq x y = true := by show decide (x = y) = true; simp [hxy]
      rw [if_pos he]
      obtain ⟨f, hf⟩ := fieldType_ok (h x (List.mem_cons_self ..))
      have hf' : x.fieldType o = .ok f := hf
      rw [hf']
      by_cases hff : f = .fermion
      · subst hff
        exact Or.inr ⟨rfl, [], x, l, by rw [hxy]; rfl, hf⟩
      · show (_ ∧ _) ∨ (_ ∧ _)
        simp only [bind, Except.bind, hff, if_false]
        rcases ih with ⟨i1, i2⟩ | ⟨i1, pre, a, post, i2, i3⟩
        · left; refine ⟨i1, List.isChain_cons_cons.2 ⟨?_, i2⟩⟩
          intro hc; exact not_fermion hf hff hc.2
        · right; exact ⟨i1, x :: pre, a, post, by rw [i2]; rfl, i3⟩
    · have he : ¬ CppEq.eq x y = true := by show ¬ decide (x = y) = true; simp [hxy]
      rw [if_neg he]
      rcases ih with ⟨i1, i2⟩ | ⟨i1, pre, a, post, i2, i3⟩
      · left; refine ⟨i1, List.isChain_cons_cons.2 ⟨?_, i2⟩⟩
        intro hc; exact hxy hc.1
      · right; exact ⟨i1, x :: pre, a, post, by rw [i2]; rfl, i3⟩

/-! ### the measure -/

/-- number of inversions of an operator string -/
def inv : List SQOp → Nat
  | [] => 0
  | a :: l => l.countP (fun b => lt b a) + inv l

theorem inv_le : ∀ l : List SQOp, inv l ≤ l.length * l.length
  | [] => by simp [inv]
  | a :: l => by
    have := inv_le l
    have h2 : l.countP (fun b => lt b a) ≤ l.length := List.countP_le_length
    simp only [inv, List.length_cons]
    nlinarith

theorem inv_swap {a b : SQOp} (h : lt b a = true) (post : List SQOp) : ∀ pre : List SQOp,
    inv (pre ++ b :: a :: post) + 1 = inv (pre ++ a :: b :: post)
  | [] => by
    simp only [List.nil_append, inv, List.countP_cons, h, lt_asymm h]; simp; omega
  | x :: pre => by
    have ih := inv_swap h post pre
    simp only [List.cons_append, inv, List.countP_append, List.countP_cons]
    omega

theorem inv_remove {a b : SQOp} (h : lt b a = true) (post : List SQOp) : ∀ pre : List SQOp,
    inv (pre ++ post) + 1 ≤ inv (pre ++ a :: b :: post)
  | [] => by
    simp only [List.nil_append, inv, List.countP_cons, h]; simp; omega
  | x :: pre => by
    have ih := inv_remove h post pre
    simp only [List.cons_append, inv, List.countP_append, List.countP_cons]
    omega

/-! ### termination -/

theorem commutatorFactor_spec {o : OSI} {a b : SQOp} (ha : a.index.Registered o) (hb : b.index.Registered o) :
    ∃ s, a.commutatorFactor o b = .ok s ∧ Canon s ∧ toRat s = exchSign o a.index b.index := by
  obtain ⟨f, hf⟩ := fieldType_ok ha
  obtain ⟨g, hg⟩ := fieldType_ok hb
  unfold SQOp.commutatorFactor
  rw [show a.fieldType o = .ok f from hf, show b.fieldType o = .ok g from hg]
  refine ⟨_, rfl, ?_, ?_⟩
  · split
    · exact canon_neg (canon_ofInt 1)
    · exact canon_ofInt 1
  · have ef : a.index.IsFermion o ↔ f = .fermion := by
      unfold Index.IsFermion; rw [hf]; exact ⟨fun h => by cases h; rfl, fun h => by rw [h]⟩
    have eg : b.index.IsFermion o ↔ g = .fermion := by
      unfold Index.IsFermion; rw [hg]; exact ⟨fun h => by cases h; rfl, fun h => by rw [h]⟩
    unfold exchSign
    by_cases h : f = .fermion ∧ g = .fermion
    · rw [if_pos h, if_pos ⟨ef.2 h.1, eg.2 h.2⟩]; simp [toRat_neg]
    · rw [if_neg h, if_neg (fun h' => h ⟨ef.1 h'.1, eg.1 h'.2⟩)]; simp

theorem reg_sub {o : OSI} {l l' : List SQOp} (h : ∀ a ∈ l, a.index.Registered o) (hs : ∀ a ∈ l', a ∈ l) :
    ∀ a ∈ l', a.index.Registered o := fun a ha => h a (hs a ha)

/-- what every returned term looks like -/
structure VnoGood (o : OSI) (t : STerm) : Prop where
  flag : t.normalOrdered = false
  reg : ∀ a ∈ t.ops, a.index.Registered o
  sorted : List.IsChain (fun a b => lt b a = false) t.ops
  nodup : List.IsChain (fun a b => ¬ (a = b ∧ a.index.IsFermion o)) t.ops

/-- the recursion terminates within `inv + 1` levels and all results are normal ordered -/
theorem vnoAux_good {o : OSI} {s : Bool} : ∀ (fuel : Nat) (t : STerm) (c : Rational), inv t.ops < fuel →
    (∀ a ∈ t.ops, a.index.Registered o) → t.normalOrdered = false → Canon c →
    ∃ r, vnoAux o s fuel t c = .ok r ∧ ∀ p ∈ r, VnoGood o p.1 ∧ Canon p.2 := by
  intro fuel
  induction fuel with
  | zero => intro t c h; omega
  | succ fuel ih =>
    intro t c hfuel hreg hfl hc
    rw [vnoAux]
    by_cases he : t.ops.isEmpty = true
    · rw [if_pos he]
      refine ⟨_, rfl, ?_⟩
      intro p hp
      rw [List.mem_singleton] at hp; subst hp
      have : t.ops = [] := by simpa using he
      refine ⟨⟨hfl, hreg, ?_, ?_⟩, hc⟩
      · show List.IsChain _ t.ops; rw [this]; simp
      · show List.IsChain _ t.ops; rw [this]; simp
    · rw [if_neg he]
      rcases noAdj_spec hreg with ⟨hv, hch⟩ | ⟨hv, _⟩
      · rw [hv]
        cases hf : adjFind (fun a b => lt b a) t.ops with
        | none =>
          refine ⟨[(t, c)], rfl, ?_⟩
          intro p hp
          rw [List.mem_singleton] at hp; subst hp
          exact ⟨⟨hfl, hreg, adjFind_none.1 hf, hch⟩, hc⟩
        | some q =>
          rcases q with ⟨pre, a, b, post⟩
          obtain ⟨hl, hlt⟩ := adjFind_some hf
          have hra : a.index.Registered o := hreg a (by rw [hl]; simp)
          have hrb : b.index.Registered o := hreg b (by rw [hl]; simp)
          obtain ⟨sg, hsg, hsc, _⟩ := commutatorFactor_spec hra hrb
          have hi : inv (pre ++ a :: b :: post) < fuel + 1 := by rw [← hl]; exact hfuel
          obtain ⟨r1, hr1, hg1⟩ := ih ⟨false, pre ++ b :: a :: post, t.tensors⟩ (Rational.mul c sg)
            (by have := inv_swap hlt post pre; simp only; omega)
            (reg_sub hreg (by intro x hx; rw [hl]; simp at hx ⊢; tauto)) rfl (canon_mul hc hsc)
          simp only [bind, Except.bind, hsg, hr1]
          by_cases hcond : (a.isCre != b.isCre && decide (a.index.space = b.index.space)) = true
          · simp only [hcond]
            by_cases hcond2 : (!s || decide (a.index = b.index)) = true
            · simp only [hcond2]
              obtain ⟨r2, hr2, hg2⟩ := ih ⟨false, pre ++ post,
                if decide (a.index = b.index) then t.tensors else t.tensors ++ [deltaTensor a b]⟩ c
                (by have := inv_remove hlt post pre; simp only; omega)
                (reg_sub hreg (by intro x hx; rw [hl]; simp at hx ⊢; tauto)) rfl hc
              refine ⟨r1 ++ r2, ?_, ?_⟩
              · simp only [hr2]; rfl
              · intro p hp
                rcases List.mem_append.1 hp with h | h
                · exact hg1 p h
                · exact hg2 p h
            · simp only [hcond2]
              exact ⟨r1, rfl, hg1⟩
          · simp only [hcond]
            exact ⟨r1, rfl, hg1⟩
      · rw [hv]
        exact ⟨[], rfl, by simp⟩

/-- more fuel does not change the result -/
theorem vnoAux_mono {o : OSI} {s : Bool} : ∀ (fuel fuel' : Nat) (t : STerm) (c : Rational) (r),
    fuel ≤ fuel' → vnoAux o s fuel t c = .ok r → vnoAux o s fuel' t c = .ok r := by
  intro fuel
  induction fuel with
  | zero => intro fuel' t c r _ h; cases h
  | succ fuel ih =>
    intro fuel' t c r hle h
    obtain ⟨f', rfl⟩ : ∃ f', fuel' = f' + 1 := ⟨fuel' - 1, by omega⟩
    rw [vnoAux] at h ⊢
    by_cases he : t.ops.isEmpty = true
    · rw [if_pos he] at h ⊢; exact h
    · rw [if_neg he] at h ⊢
      cases hv : noAdjacentIdentical o t.ops with
      | error x => rw [hv] at h; cases h
      | ok valid =>
        rw [hv] at h
        cases valid with
        | false => exact h
        | true =>
          cases hf : adjFind (fun a b => lt b a) t.ops with
          | none =>
            simp only [bind, Except.bind, hf] at h ⊢
            exact h
          | some q =>
            rcases q with ⟨pre, a, b, post⟩
            simp only [bind, Except.bind, hf] at h ⊢
            cases hsg : a.commutatorFactor o b with
            | error x => rw [hsg] at h; cases h
            | ok sg =>
              rw [hsg] at h
              simp only at h ⊢
              cases hr1 : vnoAux o s fuel ⟨false, pre ++ b :: a :: post, t.tensors⟩ (Rational.mul c sg) with
              | error x => rw [hr1] at h; cases h
              | ok r1 =>
                rw [hr1] at h
                rw [ih f' _ _ _ (by omega) hr1]
                simp only at h ⊢
                by_cases hcond : (a.isCre != b.isCre && decide (a.index.space = b.index.space)) = true
                · simp only [hcond] at h ⊢
                  by_cases hcond2 : (!s || decide (a.index = b.index)) = true
                  · simp only [hcond2] at h ⊢
                    generalize hT : (if decide (a.index = b.index) = true then t.tensors else t.tensors ++ [deltaTensor a b]) = T at h ⊢
                    cases hr2 : vnoAux o s fuel ⟨false, pre ++ post, T⟩ c with
                    | error x => rw [hr2] at h; cases h
                    | ok r2 =>
                      rw [hr2] at h
                      rw [ih f' _ _ _ (by omega) hr2]
                      exact h
                  · simp only [hcond2] at h ⊢; exact h
                · simp only [hcond] at h ⊢; exact h

/-! ### value -/

section value
variable {R A : Type _} [CommRing R] [Ring A] [Algebra R A] [Algebra ℚ A]
variable {v : Valuation R A} {o : OSI} {Orb : Type _} {orb : Index → Orb}

theorem ops_append (l l' : List SQOp) : v.ops (l ++ l') = v.ops l * v.ops l' := by
  simp [Valuation.ops]

/-- the relations of `Valuation.CCR`, only for the indices that satisfy `P` -/
structure CCROn (v : Valuation R A) (o : OSI) (orb : Index → Orb) (P : Index → Prop) : Prop where
  reg : ∀ i, P i → i.Registered o
  cre_cre : ∀ i j, P i → P j → v.cre i * v.cre j = exchSign o i j • (v.cre j * v.cre i)
  ann_ann : ∀ i j, P i → P j → v.ann i * v.ann j = exchSign o i j • (v.ann j * v.ann i)
  ann_cre_same : ∀ i j, P i → P j → i.space = j.space → orb i = orb j →
    v.ann i * v.cre j = exchSign o i j • (v.cre j * v.ann i) + 1
  ann_cre_diff : ∀ i j, P i → P j → ¬ (i.space = j.space ∧ orb i = orb j) →
    v.ann i * v.cre j = exchSign o i j • (v.cre j * v.ann i)
  delta_same : ∀ i j, P i → P j → orb i = orb j → v.T "delta".toList [i] [j] = 1
  delta_diff : ∀ i j, P i → P j → orb i ≠ orb j → v.T "delta".toList [i] [j] = 0

theorem ccrOn_of_ccr (hv : v.CCR o orb) : CCROn v o orb (fun i => i.Registered o) :=
  ⟨fun _ h => h, hv.cre_cre, hv.ann_ann, hv.ann_cre_same, hv.ann_cre_diff,
    fun i j _ _ => hv.delta_same i j, fun i j _ _ => hv.delta_diff i j⟩

theorem op_sq_zero {P : Index → Prop} (hv : CCROn v o orb P) {a : SQOp} (ha : P a.index) (hf : a.index.IsFermion o) :
    v.op a * v.op a = 0 := by
  have h : v.op a * v.op a = (-1 : ℚ) • (v.op a * v.op a) := by
    unfold Valuation.op
    rcases a with ⟨t, i⟩
    cases t
    · have := hv.cre_cre i i ha ha
      rw [exchSign, if_pos ⟨hf, hf⟩] at this; exact this
    · have := hv.ann_ann i i ha ha
      rw [exchSign, if_pos ⟨hf, hf⟩] at this; exact this
  have h2 : (2 : ℚ) • (v.op a * v.op a) = 0 := by
    rw [neg_smul, one_smul] at h
    rw [two_smul]; nth_rewrite 1 [h]; simp
  have h3 := congrArg (fun x => (1 / 2 : ℚ) • x) h2
  simp only [smul_smul, smul_zero] at h3
  norm_num at h3
  exact h3

theorem smul_comm' (r : R) (q : ℚ) (x : A) : r • q • x = q • r • x := by
  rw [Algebra.smul_def q, Algebra.smul_def q, mul_smul_comm]

/-- exchanging an inverted pair -/
theorem op_exchange {P : Index → Prop} (hv : CCROn v o orb P) {a b : SQOp} (ha : P a.index) (hb : P b.index)
    (hlt : lt b a = true) :
    v.op a * v.op b = exchSign o a.index b.index • (v.op b * v.op a) +
      (if (a.isCre != b.isCre && decide (a.index.space = b.index.space)) = true then
        (if a.index = b.index then 1 else v.T "delta".toList (deltaTensor a b).lower (deltaTensor a b).upper • (1 : A))
        else 0) := by
  have hlt' : SQOp.ltB b a = true := hlt
  rcases a with ⟨ta, i⟩; rcases b with ⟨tb, j⟩
  cases ta <;> cases tb
  · simp only [SQOp.isCre, Valuation.op]
    simpa using hv.cre_cre i j ha hb
  · simp [SQOp.ltB, SQOp.isCre] at hlt'
  · simp only [SQOp.isCre, Valuation.op, deltaTensor]
    by_cases hsp : i.space = j.space
    · by_cases hij : i = j
      · subst hij
        simpa using hv.ann_cre_same i i ha hb rfl rfl
      · by_cases ho : orb i = orb j
        · rw [hv.ann_cre_same i j ha hb hsp ho]
          simp [hsp, hij]
          have := hv.delta_same i j ha hb ho
          simp at this
          rw [this, one_smul]
        · rw [hv.ann_cre_diff i j ha hb (fun h => ho h.2)]
          simp [hsp, hij]
          have := hv.delta_diff i j ha hb ho
          simp at this
          rw [this, zero_smul]
    · rw [hv.ann_cre_diff i j ha hb (fun h => hsp h.1)]
      simp [hsp]
  · simp only [SQOp.isCre, Valuation.op]
    simpa using hv.ann_ann i j ha hb

/-- total value of a list of weighted terms -/
def listVal (v : Valuation R A) (l : List (STerm × Rational)) : A := (l.map (fun p => toRat p.2 • v.term p.1)).sum

theorem listVal_append (l l' : List (STerm × Rational)) : listVal v (l ++ l') = listVal v l + listVal v l' := by
  simp [listVal]

theorem tensors_snoc (l : List Tensor) (t : Tensor) :
    v.tensors (l ++ [t]) = v.tensors l * v.T t.label t.lower t.upper := by
  simp [Valuation.tensors]

theorem sub_mem {P : Index → Prop} {l l' : List SQOp} (h : ∀ a ∈ l, P a.index) (hs : ∀ a ∈ l', a ∈ l) :
    ∀ a ∈ l', P a.index := fun a ha => h a (hs a ha)

theorem vnoAux_valueOn {P : Index → Prop} (hv : CCROn v o orb P) {s : Bool}
    (hs : s = true → ∀ i j : Index, i.space = j.space → orb i = orb j → i = j) :
    ∀ (fuel : Nat) (t : STerm) (c : Rational) (r),
    (∀ a ∈ t.ops, P a.index) → Canon c → vnoAux o s fuel t c = .ok r →
    listVal v r = toRat c • v.term t := by
  intro fuel
  induction fuel with
  | zero => intro t c r _ _ h; cases h
  | succ fuel ih =>
    intro t c r hreg hc h
    rw [vnoAux] at h
    by_cases he : t.ops.isEmpty = true
    · rw [if_pos he] at h
      cases h; simp [listVal]
    · rw [if_neg he] at h
      rcases noAdj_spec (fun a ha => hv.reg _ (hreg a ha)) with ⟨hvv, hch⟩ | ⟨hvv, pre, a, post, hl, hfm⟩
      · rw [hvv] at h
        cases hf : adjFind (fun a b => lt b a) t.ops with
        | none =>
          simp only [bind, Except.bind, hf] at h
          cases h; simp [listVal]
        | some q =>
          rcases q with ⟨pre, a, b, post⟩
          obtain ⟨hl, hlt⟩ := adjFind_some hf
          have hra : P a.index := hreg a (by rw [hl]; simp)
          have hrb : P b.index := hreg b (by rw [hl]; simp)
          obtain ⟨sg, hsg, hsc, hsv⟩ := commutatorFactor_spec (hv.reg _ hra) (hv.reg _ hrb)
          simp only [bind, Except.bind, hf, hsg] at h
          -- value of the term, split at the pair
          have hterm : v.term t = exchSign o a.index b.index • v.term ⟨false, pre ++ b :: a :: post, t.tensors⟩ +
              v.tensors t.tensors • (v.ops pre * (if (a.isCre != b.isCre && decide (a.index.space = b.index.space)) = true then
                (if a.index = b.index then 1 else v.T "delta".toList (deltaTensor a b).lower (deltaTensor a b).upper • (1 : A))
                else 0) * v.ops post) := by
            unfold Valuation.term
            rw [hl]
            simp only
            rw [← smul_comm', ← smul_add]
            congr 1
            have e1 : v.ops (pre ++ a :: b :: post) = v.ops pre * (v.op a * v.op b) * v.ops post := by
              simp [Valuation.ops, mul_assoc]
            have e2 : v.ops (pre ++ b :: a :: post) = v.ops pre * (v.op b * v.op a) * v.ops post := by
              simp [Valuation.ops, mul_assoc]
            rw [e1, e2, op_exchange hv hra hrb hlt, mul_add, add_mul, mul_smul_comm, smul_mul_assoc]
          cases hr1 : vnoAux o s fuel ⟨false, pre ++ b :: a :: post, t.tensors⟩ (Rational.mul c sg) with
          | error x => rw [hr1] at h; cases h
          | ok r1 =>
            rw [hr1] at h
            have v1 := ih _ _ _ (sub_mem hreg (by intro x hx; rw [hl]; simp at hx ⊢; tauto)) (canon_mul hc hsc) hr1
            rw [toRat_mul, hsv] at v1
            simp only at h
            by_cases hcond : (a.isCre != b.isCre && decide (a.index.space = b.index.space)) = true
            · simp only [hcond] at h
              rw [if_pos hcond] at hterm
              by_cases hcond2 : (!s || decide (a.index = b.index)) = true
              · simp only [hcond2] at h
                generalize hT : (if decide (a.index = b.index) = true then t.tensors else t.tensors ++ [deltaTensor a b]) = T at h
                cases hr2 : vnoAux o s fuel ⟨false, pre ++ post, T⟩ c with
                | error x => rw [hr2] at h; cases h
                | ok r2 =>
                  rw [hr2] at h
                  cases h
                  have v2 := ih _ _ _ (sub_mem hreg (by intro x hx; rw [hl]; simp at hx ⊢; tauto)) hc hr2
                  rw [listVal_append, v1, v2, hterm, smul_add, mul_smul]
                  congr 2
                  unfold Valuation.term
                  simp only
                  rw [← hT, ops_append]
                  by_cases hij : a.index = b.index
                  · simp [hij]
                  · simp only [hij, decide_false, if_false]
                    rw [if_neg (by simp), tensors_snoc, mul_smul, mul_smul_comm, mul_one, smul_mul_assoc]
                    rfl
              · simp only [hcond2] at h
                cases h
                rw [v1, hterm, mul_smul]
                simp only [Bool.or_eq_true, Bool.not_eq_true', decide_eq_true_eq, not_or, Bool.not_eq_false] at hcond2
                have hsp : a.index.space = b.index.space := by simp at hcond; exact hcond.2
                have hcre : a.isCre ≠ b.isCre := by simp at hcond; exact hcond.1
                rw [if_neg hcond2.2]
                have hdel : v.T "delta".toList (deltaTensor a b).lower (deltaTensor a b).upper = 0 := by
                  unfold deltaTensor
                  simp only
                  split
                  all_goals
                    first
                      | exact hv.delta_diff _ _ hra hrb (fun ho => hcond2.2 (hs hcond2.1 _ _ hsp ho))
                      | exact hv.delta_diff _ _ hrb hra (fun ho => hcond2.2 (hs hcond2.1 _ _ hsp.symm ho).symm)
                rw [hdel, zero_smul, mul_zero, zero_mul, smul_zero, add_zero]
            · simp only [hcond] at h
              cases h
              rw [v1, hterm, if_neg hcond, mul_zero, zero_mul, smul_zero, add_zero, mul_smul]
      · rw [hvv] at h
        simp only [bind, Except.bind] at h
        cases h
        have hra : P a.index := hreg a (by rw [hl]; simp)
        have : v.ops t.ops = 0 := by
          rw [hl]
          have e1 : v.ops (pre ++ a :: a :: post) = v.ops pre * (v.op a * v.op a) * v.ops post := by
            simp [Valuation.ops, mul_assoc]
          rw [e1, op_sq_zero hv hra hfm, mul_zero, zero_mul]
        simp [listVal, Valuation.term, this]

theorem vnoAux_value (hv : v.CCR o orb) {s : Bool}
    (hs : s = true → ∀ i j : Index, i.space = j.space → orb i = orb j → i = j)
    (fuel : Nat) (t : STerm) (c : Rational) (r)
    (hreg : ∀ a ∈ t.ops, a.index.Registered o) (hc : Canon c) (h : vnoAux o s fuel t c = .ok r) :
    listVal v r = toRat c • v.term t := vnoAux_valueOn (ccrOn_of_ccr hv) hs fuel t c r hreg hc h

end value
end Wicked
