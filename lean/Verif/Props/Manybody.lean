import Verif.Spec.Equation
import Verif.Props.Registry
import Verif.Proofs.Lin
/-! # C55: `to_manybody_equation` -/
namespace Wicked
open CppLt CppEq

theorem eqv_eq_iff {a b : Str} : eqv a b = true ↔ a = b := by
  rw [eqv_iff]
  constructor
  · rintro ⟨h1, h2⟩; exact StrictTotal.conn _ _ h1 h2
  · rintro rfl; simp [StrictWeak.irrefl]

theorem splitOps_eq (ops : List SQOp) :
    splitOps ops = ((ops.filter (·.isCre)).map (·.index), ((ops.filter (fun a => !a.isCre)).map (·.index)).reverse) := by
  have key : ∀ (ops : List SQOp) (a b : List Index),
      ops.foldl (fun st a => if a.isCre then (st.1 ++ [a.index], st.2) else (st.1, a.index :: st.2)) (a, b) =
        (a ++ (ops.filter (·.isCre)).map (·.index), ((ops.filter (fun a => !a.isCre)).map (·.index)).reverse ++ b) := by
    intro ops
    induction ops with
    | nil => intro a b; simp
    | cons x l ih =>
      intro a b
      rw [List.foldl_cons]
      cases hx : x.isCre
      · simp [hx, ih]
      · simp [hx, ih]
  have := key ops [] []
  simpa [splitOps] using this

theorem termEquation_eq (label : Str) (t : STerm) (c : Rational) : termEquation label t c = manybodyEquation label t c := by
  unfold termEquation manybodyEquation lhsTensor
  rw [splitOps_eq]

theorem sigBump_fold (u : Bool) (is : List Index) : ∀ (c : List (Int × Int)), (∀ i ∈ is, 0 ≤ i.space ∧ i.space < c.length) →
    ∃ c', is.foldlM (m := Except Fault) (fun c i => sigBump u c i.space) c = .ok c' ∧ c'.length = c.length ∧
      ∀ (n : Nat) p, c[n]? = some p → c'[n]? = some (if u then (p.1 + (is.countP (fun i => decide (i.space = (n : Int))) : Nat), p.2)
        else (p.1, p.2 + (is.countP (fun i => decide (i.space = (n : Int))) : Nat))) := by
  induction is with
  | nil => intro c _; exact ⟨c, rfl, rfl, fun n p h => by cases u <;> simp [h]⟩
  | cons i is ih =>
    intro c h
    have hi := h i (by simp)
    have hlt : i.space.toNat < c.length := by omega
    rw [List.foldlM_cons, show sigBump u c i.space = .ok (c.modify i.space.toNat (fun p => if u then (p.1 + 1, p.2) else (p.1, p.2 + 1))) from
      if_pos ⟨hi.1, hlt⟩]
    obtain ⟨c', h1, h2, h3⟩ := ih (c.modify i.space.toNat (fun p => if u then (p.1 + 1, p.2) else (p.1, p.2 + 1)))
      (fun j hj => by rw [List.length_modify]; exact h j (by simp [hj]))
    refine ⟨c', h1, by rw [h2, List.length_modify], ?_⟩
    intro n p hp
    by_cases hn : i.space.toNat = n
    · rw [h3 n (if u then (p.1 + 1, p.2) else (p.1, p.2 + 1)) (by rw [List.getElem?_modify, hp]; simp [hn])]
      have : i.space = (n : Int) := by omega
      cases u <;> simp [List.countP_cons, this] <;> omega
    · rw [h3 n p (by rw [List.getElem?_modify, hp]; simp [hn])]
      have : ¬ i.space = (n : Int) := by omega
      cases u <;> simp [List.countP_cons, this]

theorem signature_spec {o : OSI} (label : Str) {t : STerm} (h : OpsRegistered o t) :
    (lhsTensor label t).signature o = .ok ((List.range o.spaces.length).map (fun s => ((opCount t false s : Int), (opCount t true s : Int)))) := by
  unfold Tensor.signature lhsTensor
  rw [splitOps_eq]
  dsimp only
  obtain ⟨c1, h1, l1, g1⟩ := sigBump_fold true ((t.ops.filter (fun a => !a.isCre)).map (·.index)).reverse (List.replicate o.spaces.length (0, 0)) (by
    intro i hi
    rw [List.mem_reverse, List.mem_map] at hi
    obtain ⟨a, ha, rfl⟩ := hi
    rw [List.length_replicate]
    exact h a (List.mem_filter.1 ha).1)
  rw [List.length_replicate] at l1
  obtain ⟨c2, h2, l2, g2⟩ := sigBump_fold false ((t.ops.filter (·.isCre)).map (·.index)) c1 (by
    intro i hi
    rw [List.mem_map] at hi
    obtain ⟨a, ha, rfl⟩ := hi
    rw [l1]
    exact h a (List.mem_filter.1 ha).1)
  rw [h1]
  simp only [bind, Except.bind]
  rw [h2]
  congr 1
  apply List.ext_getElem?
  intro n
  by_cases hn : n < o.spaces.length
  · have e1 := g1 n (0, 0) (by rw [List.getElem?_replicate, if_pos hn])
    simp only [if_true] at e1
    have e2 := g2 n _ e1
    rw [e2, List.getElem?_map, List.getElem?_range hn]
    simp only [Option.map_some, Option.some.injEq]
    unfold opCount
    simp [List.countP_map, List.countP_filter, Function.comp_def, Bool.and_comm]
  · rw [List.getElem?_eq_none (by omega), List.getElem?_eq_none (by simp; omega)]

theorem label_nat {o : OSI} {s : OrbitalSpace} {n : Nat} (h : o.spaces[n]? = some s) : o.label (n : Int) = .ok s.label := by
  unfold OSI.label OSI.space
  simp [h, bind, Except.bind, pure, Except.pure]

theorem sigKey_spec (o : OSI) (f g : Nat → Nat) :
    sigKey o ((List.range o.spaces.length).map (fun s => ((f s : Int), (g s : Int)))) = .ok (repeatLabels o f ++ '|' :: (repeatLabels o g).reverse) := by
  have key : ∀ (sp : List OrbitalSpace) (k : Nat) (a b : Str), o.spaces.drop k = sp → 
      ((List.range' k sp.length).map (fun s => ((f s : Int), (g s : Int)))).foldlM (m := Except Fault) (fun (st : Str × Str × Int) ul => do
        let c ← o.label st.2.2
        return (st.1 ++ List.replicate ul.1.toNat c, st.2.1 ++ List.replicate ul.2.toNat c, st.2.2 + 1)) (a, b, (k : Int)) =
      .ok (a ++ (sp.zipIdx k).flatMap (fun p => List.replicate (f p.2) p.1.label), b ++ (sp.zipIdx k).flatMap (fun p => List.replicate (g p.2) p.1.label), ((k + sp.length : Nat) : Int)) := by
    intro sp
    induction sp with
    | nil => intro k a b _; simp [pure, Except.pure]
    | cons x sp ih =>
      intro k a b hk
      have hx : o.spaces[k]? = some x := by
        have := congrArg (fun l => l[0]?) hk
        simpa using this
      rw [List.length_cons, List.range'_succ, List.map_cons, List.foldlM_cons]
      simp only [label_nat hx, bind, Except.bind, pure, Except.pure, Int.toNat_natCast]
      have := ih (k + 1) (a ++ List.replicate (f k) x.label) (b ++ List.replicate (g k) x.label) (by
        have := congrArg (List.drop 1) hk
        simpa [List.drop_drop, Nat.add_comm] using this)
      simp only [bind, Except.bind, pure, Except.pure] at this
      rw [show ((k : Int) + 1) = ((k + 1 : Nat) : Int) by push_cast; rfl, this]
      simp [List.append_assoc]
      omega
  have := key o.spaces 0 [] [] (by simp)
  unfold sigKey sigStrings
  rw [← List.range_eq_range'] at this
  rw [show ((0 : Nat) : Int) = 0 from rfl] at this
  rw [this]
  simp [bind, Except.bind, pure, Except.pure, repeatLabels]

theorem step_eq {o : OSI} (label : Str) {t : STerm} (h : OpsRegistered o t) (c : Rational) (m : SMap Str (List Equation)) :
    (do let sig ← (lhsTensor label t).signature o
        let key ← sigKey o sig
        return m.insert key ((m.find key).getD [] ++ [termEquation label t c]) : Res (SMap Str (List Equation))) =
      .ok (m.insert (manybodyKey o t) ((m.find (manybodyKey o t)).getD [] ++ [manybodyEquation label t c])) := by
  rw [signature_spec label h]
  simp only [bind, Except.bind]
  rw [sigKey_spec]
  simp only [termEquation_eq]
  rfl

theorem manybody_fold {o : OSI} (label : Str) (e : Expr) (h : ∀ p ∈ e, OpsRegistered o p.1) : ∀ m : SMap Str (List Equation),
    SMap.Srt m →
    ∃ m', e.foldlM (m := Except Fault) (fun m tc => do
      let sig ← (lhsTensor label tc.1).signature o
      let key ← sigKey o sig
      return m.insert key ((m.find key).getD [] ++ [termEquation label tc.1 tc.2])) m = .ok m' ∧ SMap.Srt m' ∧
      ∀ k, (m'.find k).getD [] = (m.find k).getD [] ++ (e.filter (fun p => decide (manybodyKey o p.1 = k))).map (fun p => manybodyEquation label p.1 p.2) ∧
        ((m'.find k).isSome ↔ (m.find k).isSome ∨ ∃ p ∈ e, manybodyKey o p.1 = k) := by
  induction e with
  | nil => intro m hm; exact ⟨m, rfl, hm, fun k => by simp⟩
  | cons p e ih =>
    intro m hm
    rw [List.foldlM_cons, step_eq label (h p (by simp))]
    obtain ⟨m', h1, h2, h3⟩ := ih (fun q hq => h q (by simp [hq])) _ (SMap.srt_insert (k := manybodyKey o p.1)
      (v := (m.find (manybodyKey o p.1)).getD [] ++ [manybodyEquation label p.1 p.2]) hm)
    refine ⟨m', h1, h2, fun k => ?_⟩
    obtain ⟨a, b⟩ := h3 k
    rw [a, b, SMap.find_insert hm]
    by_cases hk : manybodyKey o p.1 = k
    · subst hk
      rw [if_pos (eqv_eq_iff.2 rfl)]
      simp
    · rw [if_neg (fun h => hk (eqv_eq_iff.1 h))]
      simp [hk]

/-- **C55** (partition): the call succeeds for every expression over the registered spaces, and the equations
filed under a key are, in the order of the expression, those of the terms with that key: a key is present iff
some term has it. -/
theorem C55_partition {o : OSI} (label : Str) {e : Expr} (h : ∀ p ∈ e, OpsRegistered o p.1) :
    ∃ m, e.toManybody o label = .ok m ∧ (m.map Prod.fst).Nodup ∧
      (∀ k, k ∈ m.map Prod.fst ↔ ∃ p ∈ e, manybodyKey o p.1 = k) ∧
      (∀ q ∈ m, q.2 = (e.filter (fun p => decide (manybodyKey o p.1 = q.1))).map (fun p => manybodyEquation label p.1 p.2)) ∧
      (m.flatMap Prod.snd).Perm (e.map (fun p => manybodyEquation label p.1 p.2)) := by
  obtain ⟨m, h1, h2, h3⟩ := manybody_fold label e h [] List.Pairwise.nil
  have hnd : (m.map Prod.fst).Nodup := by
    rw [List.Nodup, List.pairwise_map]
    apply h2.imp
    intro a b hab heq
    rw [heq] at hab
    exact absurd hab (by simp [StrictWeak.irrefl])
  have hk : ∀ k, k ∈ m.map Prod.fst ↔ ∃ p ∈ e, manybodyKey o p.1 = k := by
    intro k
    have := (h3 k).2
    simp only [SMap.find, Option.isSome_none, Bool.false_eq_true, false_or] at this
    rw [← this]
    constructor
    · intro hk
      obtain ⟨q, hq, rfl⟩ := List.mem_map.1 hk
      rw [SMap.find_of_mem h2 hq]; rfl
    · intro hs
      obtain ⟨v, hv⟩ := Option.isSome_iff_exists.1 hs
      obtain ⟨k', hk', he⟩ := SMap.find_some_mem hv
      rw [← eqv_eq_iff.1 he.1]
      exact List.mem_map_of_mem hk'
  have hq : ∀ q ∈ m, q.2 = (e.filter (fun p => decide (manybodyKey o p.1 = q.1))).map (fun p => manybodyEquation label p.1 p.2) := by
    intro q hq
    have := (h3 q.1).1
    rw [SMap.find_of_mem h2 hq] at this
    simpa [SMap.find] using this
  refine ⟨m, h1, hnd, hk, hq, ?_⟩
  have h5 : m.flatMap Prod.snd = ((m.map Prod.fst).flatMap (fun k => e.filter (fun p => decide (manybodyKey o p.1 = k)))).map (fun p => manybodyEquation label p.1 p.2) := by
    rw [List.map_flatMap, List.flatMap_map]
    apply List.flatMap_congr
    exact hq
  rw [h5]
  apply List.Perm.map
  have gen : ∀ (e : Expr) (ks : List Str), ks.Nodup → (∀ p ∈ e, manybodyKey o p.1 ∈ ks) →
      (ks.flatMap (fun k => e.filter (fun p => decide (manybodyKey o p.1 = k)))).Perm e := by
    intro e ks hn
    induction ks generalizing e with
    | nil => intro h; cases e with
      | nil => simp
      | cons p e => exact absurd (h p (by simp)) (by simp)
    | cons k ks ih =>
      intro h
      rw [List.flatMap_cons]
      have hn' := List.nodup_cons.1 hn
      have h6 : ks.flatMap (fun k' => e.filter (fun p => decide (manybodyKey o p.1 = k'))) =
          ks.flatMap (fun k' => (e.filter (fun p => !decide (manybodyKey o p.1 = k))).filter (fun p => decide (manybodyKey o p.1 = k'))) := by
        apply List.flatMap_congr
        intro k' hk'
        rw [List.filter_filter]
        apply List.filter_congr
        intro p _
        by_cases hp : manybodyKey o p.1 = k'
        · have : ¬ k' = k := fun h => hn'.1 (h ▸ hk')
          simp [hp, this]
        · simp [hp]
      rw [h6]
      refine List.Perm.trans (List.Perm.append_left _ (ih _ hn'.2 ?_)) ?_
      · intro p hp
        have hp := List.mem_filter.1 hp
        have := h p hp.1
        rcases List.mem_cons.1 this with h | h
        · simp [h] at hp
        · exact h
      · exact List.filter_append_perm _ _
  exact gen e _ hnd (fun p hp => (hk _).2 ⟨p, hp, rfl⟩)

theorem mem_repeatLabels {o : OSI} {n : Nat → Nat} {c : Char} (h : c ∈ repeatLabels o n) : ∃ s ∈ o.spaces, s.label = c := by
  unfold repeatLabels at h
  obtain ⟨p, hp, hc⟩ := List.mem_flatMap.1 h
  obtain ⟨_, hc⟩ := List.mem_replicate.1 hc
  exact ⟨p.1, List.fst_mem_of_mem_zipIdx hp, hc.symm⟩

theorem count_repeatLabels {o : OSI} (hl : (o.spaces.map (·.label)).Nodup) (n : Nat → Nat) {s : Nat} {x : OrbitalSpace}
    (hs : o.spaces[s]? = some x) : (repeatLabels o n).count x.label = n s := by
  have gen : ∀ (sp : List OrbitalSpace) (k s : Nat), (sp.map (·.label)).Nodup → sp[s]? = some x →
      ((sp.zipIdx k).flatMap (fun p => List.replicate (n p.2) p.1.label)).count x.label = n (k + s) := by
    intro sp
    induction sp with
    | nil => intro k s _ h; simp at h
    | cons y sp ih =>
      intro k s hn h
      rw [List.map_cons, List.nodup_cons] at hn
      rw [List.zipIdx_cons, List.flatMap_cons, List.count_append]
      cases s with
      | zero =>
        simp only [List.getElem?_cons_zero, Option.some.injEq] at h
        subst h
        rw [List.count_replicate_self, List.count_eq_zero.2, Nat.add_zero, Nat.add_zero]
        intro hm
        obtain ⟨p, hp, hc⟩ := List.mem_flatMap.1 hm
        obtain ⟨_, hc⟩ := List.mem_replicate.1 hc
        exact hn.1 (List.mem_map.2 ⟨p.1, List.fst_mem_of_mem_zipIdx hp, hc.symm⟩)
      | succ s =>
        simp only [List.getElem?_cons_succ] at h
        rw [ih (k + 1) s hn.2 h, List.count_eq_zero.2, Nat.zero_add]
        · congr 1; omega
        · intro hm
          obtain ⟨_, hc⟩ := List.mem_replicate.1 hm
          exact hn.1 (List.mem_map.2 ⟨x, List.mem_of_getElem? h, hc⟩)
  have := gen o.spaces 0 s hl hs
  rwa [Nat.zero_add] at this

theorem repeatLabels_congr {o : OSI} {n n' : Nat → Nat} (h : ∀ s < o.spaces.length, n s = n' s) : repeatLabels o n = repeatLabels o n' := by
  unfold repeatLabels
  apply List.flatMap_congr
  intro p hp
  rw [h p.2 (by have := List.snd_lt_of_mem_zipIdx hp; simpa using this)]

theorem bar_split {a b c d : Str} (ha : '|' ∉ a) (hc : '|' ∉ c) (h : a ++ '|' :: b = c ++ '|' :: d) : a = c ∧ b = d := by
  induction a generalizing c with
  | nil =>
    cases c with
    | nil => simpa using h
    | cons x c => simp at h; exact absurd h.1 (fun h => hc (by rw [h]; simp))
  | cons y a ih =>
    cases c with
    | nil => simp at h; exact absurd h.1 (fun h => ha (by simp [h]))
    | cons x c =>
      simp only [List.cons_append, List.cons.injEq] at h
      obtain ⟨h1, h2⟩ := ih (fun h => ha (by simp [h])) (fun h => hc (by simp [h])) h.2
      exact ⟨by rw [h.1, h1], h2⟩

/-- **C55** (keys): after any history of registry calls, if no space is labelled `|`, two terms share a key iff
they have the same numbers of creation and of annihilation operators in every space. -/
theorem C55_key_iff_partial (ops : List RegOp) (t t' : STerm) :
    let o := runReg OSI.empty ops
    (∀ s ∈ o.spaces, s.label ≠ '|') →
    (manybodyKey o t = manybodyKey o t' ↔ ∀ s < o.spaces.length, ∀ cre, opCount t cre s = opCount t' cre s) := by
  intro o hb
  have hI : RegInv o := regInv_run ops _ regInv_empty
  constructor
  · intro h s hs cre
    have hn : ∀ n, '|' ∉ repeatLabels o n := fun n hm => by
      obtain ⟨x, hx, hc⟩ := mem_repeatLabels hm
      exact hb x hx hc
    obtain ⟨h1, h2⟩ := bar_split (hn _) (hn _) h
    have h2 := List.reverse_injective h2
    have hx : o.spaces[s]? = some o.spaces[s] := List.getElem?_eq_getElem hs
    cases cre
    · rw [← count_repeatLabels hI.labels (opCount t false) hx, h1, count_repeatLabels hI.labels _ hx]
    · rw [← count_repeatLabels hI.labels (opCount t true) hx, h2, count_repeatLabels hI.labels _ hx]
  · intro h
    unfold manybodyKey
    rw [repeatLabels_congr (fun s hs => h s hs false), repeatLabels_congr (fun s hs => h s hs true)]

/-- **C55**, negation when a space is labelled `|`: the key `||` stands for a lone creation and for a lone
annihilation operator. -/
theorem C55_bar_label_clash :
    let o := runReg OSI.empty [.add '|' .fermion .occupied [['i']] []]
    manybodyKey o ⟨false, [⟨.creation, ⟨0, 0⟩⟩], []⟩ = manybodyKey o ⟨false, [⟨.annihilation, ⟨0, 0⟩⟩], []⟩ := by decide

-- an expression with three terms and two keys
def exManybody : Expr :=
  [(⟨false, [⟨.creation, ⟨0, 0⟩⟩, ⟨.annihilation, ⟨1, 0⟩⟩], [⟨['f'], [⟨0, 0⟩], [⟨1, 0⟩], .antisymmetric, false⟩]⟩, ⟨1, 1⟩),
   (⟨false, [], [⟨['f'], [⟨0, 0⟩], [⟨1, 0⟩], .antisymmetric, false⟩, ⟨['t'], [⟨1, 0⟩], [⟨0, 0⟩], .antisymmetric, false⟩]⟩, ⟨1, 2⟩),
   (⟨false, [⟨.creation, ⟨0, 0⟩⟩, ⟨.annihilation, ⟨1, 0⟩⟩], [⟨['v'], [⟨0, 0⟩], [⟨1, 0⟩], .antisymmetric, false⟩]⟩, ⟨-1, 1⟩)]
example : (∀ p ∈ exManybody, OpsRegistered (runReg OSI.empty ccHistory) p.1) ∧
    (exManybody.toManybody (runReg OSI.empty ccHistory) ['r']).toOption.map (fun m => m.map (fun q => (q.1, q.2.length))) =
      some [(['v', '|', 'o'], 2), (['|'], 1)] := by
  constructor
  · unfold OpsRegistered; decide
  · decide
end Wicked
