import Verif.Proofs.WickComp
import Verif.Proofs.Lin
import Verif.Props.CanonTerm
/-! Step 3 of Wick's theorem: how the coefficients are put together -/
namespace Wicked
open CppLt CppEq Rational
namespace Wick

/-! ### monadic bookkeeping -/

theorem foldlM_eq_mapM {α β γ : Type} (S : α → Res β) (g : γ → β → γ) :
    ∀ (l : List α) (init : γ),
      l.foldlM (init := init) (fun r a => do let x ← S a; return g r x) =
      (do let xs ← l.mapM (m := Except Fault) S; return xs.foldl g init : Res γ) := by
  intro l
  induction l with
  | nil => intro init; rfl
  | cons a l ih =>
    intro init
    rw [List.foldlM_cons, List.mapM_cons]
    cases S a with
    | error err => rfl
    | ok b =>
      simp only [bind, Except.bind, pure, Except.pure]
      have := ih (g init b)
      simp only [bind, Except.bind, pure, Except.pure] at this
      rw [this]
      cases l.mapM (m := Except Fault) S <;> rfl

theorem plus_single (m : Expr) (k : STerm) (v : Rational) : Lin.plus m (Lin.add ([] : Expr) k v) = Lin.add m k v := by
  unfold Lin.plus
  by_cases h : Rational.eq v (Rational.ofInt 0) = true
  · rw [Lin.add, if_pos h, Lin.add, if_pos h]; rfl
  · have : Lin.add ([] : Expr) k v = [(k, v)] := by
      rw [Lin.add, if_neg h]; rfl
    rw [this]; rfl

theorem processThreads_eq (o : OSI) (cfg : WickCfg) (el : List EContr) (cvs : List (List Int)) (factor : Rational)
    (ops : OperatorProduct) (minr maxr : Int) :
    processThreads o cfg el cvs factor ops minr maxr = processContractions o cfg el cvs factor ops minr maxr := by
  unfold processThreads processContractions
  rw [← foldlM_eq_mapM]
  congr 1
  funext r cv
  unfold processSingle
  simp only
  split
  · cases processOne o cfg ops (pick el cv) factor with
    | error err => rfl
    | ok x =>
      simp only [bind, Except.bind, pure, Except.pure]
      rw [plus_single]
  · simp only [bind, Except.bind, pure, Except.pure]; rfl

/-- the window test of step 3 -/
def inWindow (el : List EContr) (ops : OperatorProduct) (minr maxr : Int) (cv : List Int) : Bool :=
  decide (termRank el (OperatorProduct.numOps ops) cv ≥ minr ∧ termRank el (OperatorProduct.numOps ops) cv ≤ maxr)

theorem processContractions_eq (o : OSI) (cfg : WickCfg) (el : List EContr) (cvs : List (List Int)) (factor : Rational)
    (ops : OperatorProduct) (minr maxr : Int) :
    processContractions o cfg el cvs factor ops minr maxr =
      (do let rs ← (cvs.filter (inWindow el ops minr maxr)).mapM (m := Except Fault)
            (fun cv => processOne o cfg ops (pick el cv) factor)
          return rs.foldl (fun m r => Lin.add m r.1 r.2) [] : Res Expr) := by
  rw [← foldlM_eq_mapM]
  unfold processContractions
  generalize ([] : Expr) = init
  induction cvs generalizing init with
  | nil => rfl
  | cons cv cvs ih =>
    rw [List.foldlM_cons]
    by_cases h : termRank el (OperatorProduct.numOps ops) cv ≥ minr ∧ termRank el (OperatorProduct.numOps ops) cv ≤ maxr
    · have : inWindow el ops minr maxr cv = true := by simp [inWindow, h]
      rw [List.filter_cons_of_pos this, List.foldlM_cons]
      simp only [h, and_self, if_true]
      cases processOne o cfg ops (pick el cv) factor with
      | error err => rfl
      | ok x =>
        simp only [bind, Except.bind, pure, Except.pure]
        exact ih _
    · have : ¬ inWindow el ops minr maxr cv = true := by simp only [inWindow, decide_eq_true_eq]; exact h
      rw [List.filter_cons_of_neg this]
      rw [if_neg h]
      exact ih _

/-! ### canonical coefficients -/

theorem foldl_mul_canon {α : Type _} (g : α → Rational) (l : List α) (hg : ∀ a ∈ l, Canon (g a)) (r : Rational)
    (hr : Canon r) : Canon (l.foldl (fun f a => Rational.mul f (g a)) r) := by
  induction l generalizing r with
  | nil => exact hr
  | cons a l ih => exact ih (fun x hx => hg x (by simp [hx])) _ (canon_mul hr (hg a (by simp)))

theorem factorial_pos (n : Int) : 0 < factorial n := by
  by_cases h : n < 2
  · rw [factorial_neg h]; decide
  · have : n = (n.toNat : Int) := by omega
    rw [this, factorial_nat]; exact_mod_cast Nat.factorial_pos _

theorem canon_factor (ns : Nat) (p : Operator) : Canon (p.factor ns) := by
  unfold Operator.factor
  have key : ∀ (f : Nat → Int) (l : List Nat) (r : Rational), Canon r →
      Canon (l.foldl (fun r s => Rational.div r (Rational.ofInt (factorial (f s)))) r) := by
    intro f l
    induction l with
    | nil => intro r hr; exact hr
    | cons a l ih => intro r hr; exact ih _ (canon_div hr (factorial_pos _))
  exact key (fun s => p.gm.ann s) _ _ (key (fun s => p.gm.cre s) _ _ (canon_ofInt 1))

theorem canon_combBinomials (ns : Nat) (free : List GraphMatrix) (cs : CContr) : Canon (combBinomials ns free cs).1 := by
  unfold combBinomials
  have inner2 : ∀ (g h : GraphMatrix) (l : List Nat) (f : Rational), Canon f →
      Canon (l.foldl (fun f s => Rational.mul (Rational.mul f (Rational.ofInt (binomial (h.cre s) (g.cre s))))
        (Rational.ofInt (binomial (h.ann s) (g.ann s)))) f) := by
    intro g h l
    induction l with
    | nil => intro f hf; exact hf
    | cons a l ih => intro f hf; exact ih _ (canon_mul (canon_mul hf (canon_ofInt _)) (canon_ofInt _))
  have inner1 : ∀ (e : EContr) (l : List Nat) (st : Rational × List GraphMatrix), Canon st.1 →
      Canon (l.foldl (fun st v =>
        let g := gmAt e v
        let h := gmAt st.2 v
        let f := (List.range ns).foldl (fun f s =>
          Rational.mul (Rational.mul f (Rational.ofInt (binomial (h.cre s) (g.cre s))))
            (Rational.ofInt (binomial (h.ann s) (g.ann s)))) st.1
        (f, st.2.set v (h.sub ns g))) st).1 := by
    intro e l
    induction l with
    | nil => intro st h; exact h
    | cons a l ih => intro st h; exact ih _ (inner2 _ _ _ _ h)
  have outer : ∀ (cs : CContr) (st : Rational × List GraphMatrix), Canon st.1 →
      Canon (cs.foldl (fun st e => (List.range e.length).foldl (fun st v =>
        let g := gmAt e v
        let h := gmAt st.2 v
        let f := (List.range ns).foldl (fun f s =>
          Rational.mul (Rational.mul f (Rational.ofInt (binomial (h.cre s) (g.cre s))))
            (Rational.ofInt (binomial (h.ann s) (g.ann s)))) st.1
        (f, st.2.set v (h.sub ns g))) st) st).1 := by
    intro cs
    induction cs with
    | nil => intro st h; exact h
    | cons e cs ih => intro st h; exact ih _ (inner1 e _ _ h)
  exact outer cs _ (canon_ofInt 1)

theorem binomial_one {n : Int} (h : 1 ≤ n) : binomial n 1 = n := by
  have : n = (n.toNat : Int) := by omega
  rw [this]
  have := binomial_nat n.toNat 1
  rw [show ((1 : Nat) : Int) = 1 from rfl] at this
  rw [this]; simp

theorem mem_insert_val {κ ν : Type _} [CppLt κ] {k : κ} {v : ν} {m : SMap κ ν} {p : κ × ν}
    (h : p ∈ SMap.insert k v m) : p.2 = v ∨ p ∈ m := by
  induction m with
  | nil => simp [SMap.insert] at h; left; rw [h]
  | cons q m ih =>
    rcases q with ⟨k', v'⟩
    rw [SMap.insert] at h
    split at h
    · rcases List.mem_cons.1 h with rfl | h
      · right; simp
      · rcases ih h with h | h
        · exact Or.inl h
        · right; simp [h]
    · split at h
      · rcases List.mem_cons.1 h with rfl | h
        · left; rfl
        · right; exact h
      · rcases List.mem_cons.1 h with rfl | h
        · left; rfl
        · right; simp [h]

theorem find_mem' {κ ν : Type _} [CppLt κ] {k : κ} {v : ν} {m : SMap κ ν} (h : SMap.find k m = some v) :
    ∃ p ∈ m, p.2 = v := by
  induction m with
  | nil => simp [SMap.find] at h
  | cons q m ih =>
    rcases q with ⟨k', v'⟩
    rw [SMap.find] at h
    split at h
    · obtain ⟨p, hp, e⟩ := ih h; exact ⟨p, by simp [hp], e⟩
    · split at h
      · cases h
      · exact ⟨(k', v'), by simp, by injection h⟩

theorem contrCount_pos (cs : CContr) : ∀ p ∈ contrCount cs, 1 ≤ p.2 := by
  unfold contrCount
  have : ∀ (cs : CContr) (m : SMap EContr Int), (∀ p ∈ m, 1 ≤ p.2) →
      ∀ p ∈ cs.foldl (fun m e => m.insert e ((m.find e).getD 0 + 1)) m, 1 ≤ p.2 := by
    intro cs
    induction cs with
    | nil => intro m h; exact h
    | cons e cs ih =>
      intro m h
      apply ih
      intro p hp
      rcases mem_insert_val hp with h1 | h1
      · rw [h1]
        cases hf : SMap.find e m with
        | none => simp
        | some x =>
          obtain ⟨q, hq, hx⟩ := find_mem' hf
          have := h q hq
          simp only [Option.getD_some]; omega
      · exact h p h1
  exact this cs [] (by simp)

theorem canon_combFactor (ns : Nat) (ops : OperatorProduct) (cs : CContr) : Canon (combFactor ns ops cs) := by
  unfold combFactor
  have key : ∀ (l : SMap EContr Int) (r : Rational), (∀ p ∈ l, 1 ≤ p.2) → Canon r →
      Canon (l.foldl (fun f kv => Rational.div f (Rational.ofInt (binomial kv.2 1))) r) := by
    intro l
    induction l with
    | nil => intro r _ h; exact h
    | cons p l ih =>
      intro r hp hr
      refine ih _ (fun q hq => hp q (by simp [hq])) (canon_div hr ?_)
      show 0 < binomial p.2 1
      have := hp p (by simp)
      rw [binomial_one this]; omega
  exact key _ _ (contrCount_pos cs) (canon_combBinomials ns _ cs)

/-! ### evaluation without coefficients -/

/-- `evaluate` without the coefficients: the term and its sign -/
def evalCore (o : OSI) (ops : OperatorProduct) (cs : CContr) : Res (STerm × Int) := do
  let ns := o.spaces.length
  let (tensors, sqops, opMap) ← tensorsSqops ns ops
  let st ← cs.foldlM (evalStep o sqops opMap)
    { off := List.replicate ops.length GraphMatrix.zero, pos := 0, ncontr := 0, usign := 1, map := [],
      order := List.replicate sqops.length (-1), tensors := tensors }
  let order := (orderRest ns sqops (st.order, st.pos)).1
  let sorted := stdSort (order.zip sqops)
  let term : STerm := ⟨false, (sorted.drop st.ncontr.toNat).map Prod.snd, st.tensors⟩
  return (term.reindex st.map, st.usign * permutationSign order)

/-- product of the user's factor and the factors of the operators -/
def opFactors (ns : Nat) (ops : OperatorProduct) (f : Rational) : Rational :=
  ops.foldl (fun f op => Rational.mul f (op.factor ns)) f

theorem evaluate_eq (o : OSI) (ops : OperatorProduct) (cs : CContr) (f : Rational) :
    evaluate o ops cs f = (do
      let r ← evalCore o ops cs
      return (r.1, Rational.mul (Rational.mul (Rational.ofInt r.2) (opFactors o.spaces.length ops f))
        (combFactor o.spaces.length ops cs))) := by
  unfold evaluate evalCore
  simp only [bind, Except.bind, pure, Except.pure]
  cases tensorsSqops o.spaces.length ops with
  | error e => rfl
  | ok r =>
    simp only
    cases List.foldlM (evalStep o r.2.1 r.2.2) _ cs with
    | error e => rfl
    | ok st => rfl

theorem canon_opFactors (ns : Nat) (ops : OperatorProduct) {f : Rational} (hf : Canon f) : Canon (opFactors ns ops f) :=
  foldl_mul_canon _ _ (fun p _ => canon_factor ns p) _ hf

theorem toRat_opFactors (ns : Nat) (ops : OperatorProduct) (f : Rational) :
    toRat (opFactors ns ops f) = toRat f * (ops.map (fun p => toRat (p.factor ns))).prod := by
  unfold opFactors
  induction ops generalizing f with
  | nil => simp
  | cons p ops ih => rw [List.foldl_cons, ih, toRat_mul, List.map_cons, List.prod_cons]; ring

/-! ### signs of graph permutations -/

theorem validPass_canon {ops : OperatorProduct} {perm : Nat → Nat → Bool} : ∀ (k : Nat) (l : List Int) (s : Rational)
    (r : List Int × Rational), Canon s → validPass ops perm k l s = some r → Canon r.2 := by
  intro k
  induction k with
  | zero => intro l s r hs h; simp only [validPass, Option.some.injEq] at h; rw [← h]; exact hs
  | succ k ih =>
    intro l s r hs h
    match l with
    | [] => simp only [validPass, Option.some.injEq] at h; rw [← h]; exact hs
    | [a] => simp only [validPass, Option.some.injEq] at h; rw [← h]; exact hs
    | a :: b :: l =>
      rw [validPass] at h
      split at h
      · split at h
        · split at h
          · rename_i r' hr'
            simp only [Option.some.injEq] at h
            rw [← h]
            exact ih _ _ r' (canon_mul hs (canon_ofInt _)) hr'
          · cases h
        · cases h
      · split at h
        · rename_i r' hr'
          simp only [Option.some.injEq] at h
          rw [← h]
          exact ih _ _ r' hs hr'
        · cases h

theorem validPasses_canon {ops : OperatorProduct} {perm : Nat → Nat → Bool} : ∀ (k : Nat) (l : List Int) (s : Rational)
    (r : List Int × Rational), Canon s → validPasses ops perm k l s = some r → Canon r.2 := by
  intro k
  induction k with
  | zero => intro l s r hs h; simp only [validPasses, Option.some.injEq] at h; rw [← h]; exact hs
  | succ k ih =>
    intro l s r hs h
    rw [validPasses] at h
    split at h
    · rename_i r' hr'
      exact ih _ _ _ (validPass_canon _ _ _ _ hs hr') h
    · cases h

theorem graphs_canon {ns : Nat} {ops : OperatorProduct} {cs : CContr} {g : Graph × Rational} (h : g ∈ graphs ns ops cs) :
    Canon g.2 := by
  unfold graphs at h
  obtain ⟨p, hp, hg⟩ := List.mem_flatMap.1 h
  obtain ⟨c, _, rfl⟩ := List.mem_map.1 hg
  unfold validOpsPerms at hp
  obtain ⟨q, _, hq⟩ := List.mem_filterMap.1 hp
  unfold opsPermValid at hq
  simp only [Option.map_map, Option.map_eq_some_iff] at hq
  obtain ⟨r, hr, he⟩ := hq
  have := validPasses_canon _ _ _ _ (canon_ofInt 1) hr
  rw [← he]; exact this

theorem canonicalizeGraph_mem {ns : Nat} {ops : OperatorProduct} {cs : CContr} {r : OperatorProduct × CContr × Rational}
    (h : canonicalizeGraph ns ops cs = .ok r) :
    ∃ g ∈ graphs ns ops cs, r = (graphOps ops g.1, graphContr cs g.1, g.2) := by
  unfold canonicalizeGraph at h
  split at h
  · rename_i g l hg
    refine ⟨g, ?_, by injection h with h; exact h.symm⟩
    rw [← (stdSortBy_perm _ _).mem_iff, hg]; simp
  · cases h

theorem forall₂_right {α β : Type _} {R : α → β → Prop} {l : List α} {l' : List β} (h : List.Forall₂ R l l') :
    ∀ b ∈ l', ∃ a ∈ l, R a b := by
  induction h with
  | nil => simp
  | cons h1 h2 ih =>
    intro b hb
    rcases List.mem_cons.1 hb with rfl | hb
    · exact ⟨_, by simp, h1⟩
    · obtain ⟨x, hx, hx'⟩ := ih b hb
      exact ⟨x, by simp [hx], hx'⟩

theorem canonicalize_canon {o : OSI} {t t' : STerm} {f : Rational} (h : t.canonicalize o = .ok (t', f)) : Canon f := by
  obtain ⟨scores, tc, st, ts, _, _, _, h4, _, _, h7⟩ := canonicalize_inv h
  rw [h7]
  refine canon_mul ?_ (canon_ofInt _)
  apply foldl_mul_canon (fun p : Tensor × Rational => p.2)
  · intro p hp
    have := (mapM_ok_iff _ _ _).1 h4
    obtain ⟨x, _, hx⟩ := forall₂_right this p hp
    unfold Tensor.canonicalize at hx
    split at hx
    · cases hx
    · injection hx with hx
      rw [← hx]
      simp only
      split
      · exact canon_mul (canon_mul (canon_ofInt _) (canon_ofInt _)) (canon_ofInt _)
      · exact canon_ofInt _
  · exact canon_ofInt _

/-- the best graph, or the product itself when graph canonicalization is off -/
def bestGraph (o : OSI) (cfg : WickCfg) (ops : OperatorProduct) (cs : CContr) : Res (OperatorProduct × CContr × Rational) :=
  if cfg.canonGraph then canonicalizeGraph o.spaces.length ops cs else pure (ops, cs, Rational.ofInt 1)

theorem bestGraph_canon {o : OSI} {cfg : WickCfg} {ops : OperatorProduct} {cs : CContr} {r}
    (h : bestGraph o cfg ops cs = .ok r) : Canon r.2.2 := by
  unfold bestGraph at h
  split at h
  · obtain ⟨g, hg, rfl⟩ := canonicalizeGraph_mem h
    exact graphs_canon hg
  · simp only [pure, Except.pure, Except.ok.injEq] at h
    rw [← h]; exact canon_ofInt 1

/-- one contraction: the factor only multiplies the coefficient -/
theorem processOne_unit (o : OSI) (cfg : WickCfg) (ops : OperatorProduct) (cs : CContr) {f : Rational} (hf : Canon f) :
    processOne o cfg ops cs f = (do
      let r ← processOne o cfg ops cs (Rational.ofInt 1)
      return (r.1, Rational.mul f r.2)) ∧
    ∀ r, processOne o cfg ops cs f = .ok r → Canon r.2 := by
  have hb : ∀ f, processOne o cfg ops cs f = (do
      let b ← bestGraph o cfg ops cs
      let r ← evaluate o b.1 b.2.1 (Rational.mul f b.2.2)
      let c ← r.1.canonicalize o
      return (c.1, Rational.mul c.2 r.2)) := by
    intro f
    unfold processOne bestGraph
    split <;> rfl
  rw [hb, hb]
  cases hbg : bestGraph o cfg ops cs with
  | error e => exact ⟨rfl, fun r h => by cases h⟩
  | ok b =>
    have hbc := bestGraph_canon hbg
    simp only [bind, Except.bind, evaluate_eq, pure, Except.pure]
    cases hec : evalCore o b.1 b.2.1 with
    | error e => exact ⟨rfl, fun r h => by cases h⟩
    | ok r =>
      simp only
      cases hcn : r.1.canonicalize o with
      | error e => exact ⟨rfl, fun r h => by cases h⟩
      | ok c =>
        simp only
        have hcc := canonicalize_canon (t' := c.1) (f := c.2) hcn
        have hcanon : ∀ f, Canon f → Canon (Rational.mul c.2 (Rational.mul (Rational.mul (Rational.ofInt r.2)
            (opFactors o.spaces.length b.1 (Rational.mul f b.2.2))) (combFactor o.spaces.length b.1 b.2.1))) := fun f hf =>
          canon_mul hcc (canon_mul (canon_mul (canon_ofInt _) (canon_opFactors _ _ (canon_mul hf hbc))) (canon_combFactor _ _ _))
        constructor
        · congr 2
          apply toRat_inj (hcanon f hf) (canon_mul hf (hcanon _ (canon_ofInt 1)))
          simp only [toRat_mul, toRat_opFactors, toRat_ofInt]
          push_cast; ring
        · intro x hx
          injection hx with hx
          rw [← hx]; exact hcanon f hf

end Wick
end Wicked
