import Verif.Spec.MakeOp
import Verif.Proofs.Lin
import Verif.Proofs.TermOrder
import Verif.Props.Registry
/-! # C36: `operator_expr` -/
namespace Wicked
open CppLt CppEq Rational

theorem token_nosep {x : Char × Bool} {d : Char} (hx : isSep x.1 = false) (hd : isSep d = false) : ∀ c ∈ tokenText x d, isSep c = false := by
  intro c hc
  unfold tokenText at hc
  split at hc
  · simp at hc; rcases hc with rfl | rfl <;> assumption
  · simp at hc; rw [hc]; exact hx

theorem token_ne (x : Char × Bool) (d : Char) : tokenText x d ≠ [] := by unfold tokenText; split <;> simp

theorem takeWhile_nosep {a b : Str} (ha : ∀ c ∈ a, isSep c = false) (hb : ∀ c, b.head? = some c → isSep c = true) :
    (a ++ b).takeWhile (fun x => !isSep x) = a ∧ (a ++ b).dropWhile (fun x => !isSep x) = b := by
  induction a with
  | nil =>
    cases b with
    | nil => simp
    | cons c b => have := hb c rfl; simp [this]
  | cons c a ih =>
    have := ha c (by simp)
    obtain ⟨h1, h2⟩ := ih (fun d hd => ha d (by simp [hd]))
    simp [this, h1, h2]

theorem dropWhile_sep {a b : Str} (ha : ∀ c ∈ a, isSep c = true) (hb : ∀ c, b.head? = some c → isSep c = false) :
    (a ++ b).dropWhile isSep = b := by
  induction a with
  | nil => cases b with
    | nil => simp
    | cons c b => have := hb c rfl; simp [this]
  | cons c a ih => have := ha c (by simp); simp [this, ih (fun d hd => ha d (by simp [hd]))]

/-- what `split` returns on a spelled component -/
theorem split_spelled {s : Str} {l : Component} (h : Spelled s l) :
    (∃ ds : List Char, split s = List.zipWith tokenText l ds ∧ ds.length = l.length) ∧
    (splitRest s = split s) ∧ (∀ c, s.head? = some c → isSep c = false) ∧ s ≠ [] := by
  have hrest : ∀ s : Str, s ≠ [] → (∀ c, s.head? = some c → isSep c = false) → splitRest s = split s := by
    intro s hne hh
    cases s with
    | nil => exact absurd rfl hne
    | cons c s =>
      rw [splitRest, split]
      have := hh c rfl
      simp [this]
  have hhead : ∀ (x : Char × Bool) (d : Char) (r : Str), isSep x.1 = false → ∀ c, (tokenText x d ++ r).head? = some c → isSep c = false := by
    intro x d r hx c hc
    unfold tokenText at hc
    split at hc <;> simp at hc <;> rw [← hc] <;> exact hx
  induction h with
  | one x d hx hd =>
    have h1 := takeWhile_nosep (b := []) (token_nosep hx hd) (by simp)
    rw [List.append_nil] at h1
    refine ⟨⟨[d], ?_, rfl⟩, hrest _ (token_ne x d) (by have := hhead x d [] hx; rwa [List.append_nil] at this), by have := hhead x d [] hx; rwa [List.append_nil] at this, token_ne x d⟩
    rw [split, h1.1, h1.2]
    simp [splitRest]
  | last x d sep hx hd hs =>
    have h1 := takeWhile_nosep (b := sep) (token_nosep hx hd) (by intro c hc; exact hs c (List.mem_of_mem_head? hc))
    have hne : tokenText x d ++ sep ≠ [] := by simp [token_ne]
    refine ⟨⟨[d], ?_, rfl⟩, hrest _ hne (hhead x d sep hx), hhead x d sep hx, hne⟩
    rw [split, h1.1, h1.2]
    have := dropWhile_sep (b := []) hs (by simp)
    rw [List.append_nil] at this
    rw [this]
    simp [splitRest]
  | cons x d sep hx hd hs hne h ih =>
    rename_i s t
    obtain ⟨⟨ds, i1, i2⟩, i3, i4, i5⟩ := ih
    have h1 := takeWhile_nosep (b := sep ++ s) (token_nosep hx hd) (by
      intro c hc
      cases sep with
      | nil => exact absurd rfl hne
      | cons e sep => simp at hc; rw [← hc]; exact hs e (by simp))
    have hne' : tokenText x d ++ sep ++ s ≠ [] := by simp [token_ne]
    have hh : ∀ c, (tokenText x d ++ sep ++ s).head? = some c → isSep c = false := by
      rw [List.append_assoc]; exact hhead x d _ hx
    refine ⟨⟨d :: ds, ?_, by simp [i2]⟩, hrest _ hne' hh, hh, hne'⟩
    rw [split, List.append_assoc, h1.1, h1.2, dropWhile_sep hs i4, i3, i1]
    rfl

/-- number of letters of kind `b` of space `s` -/
def compCnt (o : OSI) (l : Component) (b : Bool) (s : Int) : Int := (l.countP (fun x => x.2 == b && decide (o.labelToSpace x.1 = .ok s)) : Int)
/-- number of letters of space `s` -/
def tot (o : OSI) (l : Component) (s : Int) : Int := (l.countP (fun x => decide (o.labelToSpace x.1 = .ok s)) : Int)

theorem tot_eq (o : OSI) (l : Component) (s : Int) : tot o l s = compCnt o l true s + compCnt o l false s := by
  induction l with
  | nil => rfl
  | cons x l ih =>
    unfold tot compCnt at *
    simp only [List.countP_cons]
    obtain ⟨c, b⟩ := x
    cases b <;> by_cases h : o.labelToSpace c = .ok s <;> simp [h] at ih ⊢ <;> omega

theorem compCnt_append (o : OSI) (l m : Component) (b : Bool) (s : Int) : compCnt o (l ++ m) b s = compCnt o l b s + compCnt o m b s := by
  unfold compCnt; rw [List.countP_append]; push_cast; rfl
theorem tot_append (o : OSI) (l m : Component) (s : Int) : tot o (l ++ m) s = tot o l s + tot o m s := by
  unfold tot; rw [List.countP_append]; push_cast; rfl
theorem compCnt_nonneg (o : OSI) (l : Component) (b : Bool) (s : Int) : 0 ≤ compCnt o l b s := by unfold compCnt; omega

/-- space of a registered letter -/
def sp (o : OSI) (c : Char) : Int := (o.labelToSpace c).toOption.getD 0

theorem sp_spec {o : OSI} {c : Char} {s : Nat} (h : o.labelToSpace c = .ok (s : Int)) : sp o c = s := by unfold sp; rw [h]; rfl

theorem compCnt_single {o : OSI} {x : Char × Bool} {s : Nat} (h : o.labelToSpace x.1 = .ok (s : Int)) (b : Bool) (s' : Int) :
    compCnt o [x] b s' = if x.2 = b ∧ s' = s then 1 else 0 := by
  unfold compCnt
  obtain ⟨c, b'⟩ := x
  simp only at h
  by_cases h1 : b' = b <;> by_cases h2 : s' = s
  · subst h1 h2; simp [h]
  · simp [h, h1, h2, show ¬ (s : Int) = s' from fun h => h2 h.symm]
  · simp [h, h1, h2]
  · simp [h, h1, h2]

theorem tot_single {o : OSI} {x : Char × Bool} {s : Nat} (h : o.labelToSpace x.1 = .ok (s : Int)) (s' : Int) :
    tot o [x] s' = if s' = s then 1 else 0 := by
  rw [tot_eq, compCnt_single h, compCnt_single h]
  cases x.2 <;> simp

/-- the indices of the creation operators of `t` when `pre` stands before it -/
def creFrom (o : OSI) : Component → Component → List Index
  | _, [] => []
  | pre, x :: t => (if x.2 then [⟨sp o x.1, compCnt o pre true (sp o x.1)⟩] else []) ++ creFrom o (pre ++ [x]) t

/-- the indices of the annihilation operators of `t` when `pre` stands before it and `n` is the number of letters -/
def annFrom (o : OSI) (n : Int → Int) : Component → Component → List Index
  | _, [] => []
  | pre, x :: t => (if x.2 then [] else [⟨sp o x.1, n (sp o x.1) - 1 - compCnt o pre false (sp o x.1)⟩]) ++ annFrom o n (pre ++ [x]) t

def vecOf (o : OSI) (f : Int → Int) : List Int := (List.range o.spaces.length).map (fun s : Nat => f (s : Int))

theorem vecOf_get {o : OSI} (f : Int → Int) {s : Nat} (h : s < o.spaces.length) : vecGet (vecOf o f) (s : Int) = .ok (f s) := by
  unfold vecGet vecOf
  rw [if_pos (by omega), Int.toNat_natCast, List.getElem?_map, List.getElem?_range h]
  rfl

theorem vecOf_set {o : OSI} (f : Int → Int) {s : Nat} (h : s < o.spaces.length) (x : Int) :
    vecSet (vecOf o f) (s : Int) x = .ok (vecOf o (fun s' => if s' = s then x else f s')) := by
  unfold vecSet vecOf
  rw [if_pos (by simp; omega), Int.toNat_natCast]
  congr 1
  apply List.ext_getElem?
  intro n
  rw [List.getElem?_set, List.getElem?_map, List.getElem?_map]
  by_cases hn : n < o.spaces.length
  · rw [List.getElem?_range hn]
    by_cases e : s = n
    · subst e; simp [hn]
    · have : ¬ ((n : Int) = s) := by omega
      simp only [if_neg e, Option.map_some, if_neg this]
  · have h1 : ¬ s = n := by omega
    rw [if_neg h1, List.getElem?_eq_none (by simpa using hn)]
    rfl

theorem vecOf_congr {o : OSI} {f g : Int → Int} (h : ∀ s, f s = g s) : vecOf o f = vecOf o g := by
  unfold vecOf; simp only [h]

theorem firstChar_token (x : Char × Bool) (d : Char) : firstChar (tokenText x d) = x.1 := by unfold tokenText firstChar; split <;> rfl
theorem length_token (x : Char × Bool) (d : Char) : (tokenText x d).length = 2 ↔ x.2 = true := by unfold tokenText; split <;> simp_all

theorem annCounts_fold {o : OSI} (t : Component) (hr : t.Registered o) : ∀ (ds : List Char) (pre : Component), ds.length = t.length →
    (List.zipWith tokenText t ds).foldlM (m := Except Fault) (fun a s => do
      let space ← o.labelToSpace (firstChar s)
      let n ← vecGet a space
      vecSet a space (n + 1)) (vecOf o (tot o pre)) = .ok (vecOf o (tot o (pre ++ t))) := by
  induction t with
  | nil => intro ds pre _; simp; rfl
  | cons x t ih =>
    intro ds pre hl
    cases ds with
    | nil => simp at hl
    | cons d ds =>
      obtain ⟨s, hs, hx⟩ := hr x (by simp)
      rw [List.zipWith_cons_cons, List.foldlM_cons]
      simp only [firstChar_token, hx, bind, Except.bind, vecOf_get _ hs, vecOf_set _ hs]
      have := ih (fun y hy => hr y (by simp [hy])) ds (pre ++ [x]) (by simpa using hl)
      rw [List.append_assoc, List.singleton_append] at this
      simp only [bind, Except.bind] at this
      rw [← this]
      congr 1
      apply vecOf_congr
      intro s'
      rw [tot_append, tot_single hx]
      split
      · next e => rw [e]
      · omega

theorem makeStep_fold {o : OSI} (n : Int → Int) (t : Component) (hr : t.Registered o) : ∀ (ds : List Char) (pre : Component) (C A : List Index), ds.length = t.length →
    (List.zipWith tokenText t ds).foldlM (m := Except Fault) (makeStep o) ⟨vecOf o (compCnt o pre true), vecOf o (fun s => n s - compCnt o pre false s), C, A⟩ =
      .ok ⟨vecOf o (compCnt o (pre ++ t) true), vecOf o (fun s => n s - compCnt o (pre ++ t) false s), C ++ creFrom o pre t, A ++ annFrom o n pre t⟩ := by
  induction t with
  | nil => intro ds pre C A _; simp [creFrom, annFrom]; rfl
  | cons x t ih =>
    intro ds pre C A hl
    cases ds with
    | nil => simp at hl
    | cons d ds =>
      obtain ⟨s, hs, hx⟩ := hr x (by simp)
      have hsp := sp_spec hx
      rw [List.zipWith_cons_cons, List.foldlM_cons]
      unfold makeStep
      simp only [firstChar_token, hx, bind, Except.bind, length_token]
      have ih' := ih (fun y hy => hr y (by simp [hy])) ds (pre ++ [x])
      by_cases hb : x.2 = true
      · rw [if_pos hb]
        simp only [vecOf_get _ hs, vecOf_set _ hs, pure, Except.pure]
        have := ih' (C ++ [⟨s, compCnt o pre true s⟩]) A (by simpa using hl)
        rw [List.append_assoc, List.append_assoc, List.singleton_append, List.singleton_append] at this
        rw [show creFrom o pre (x :: t) = ⟨s, compCnt o pre true s⟩ :: creFrom o (pre ++ [x]) t by simp [creFrom, hb, hsp],
          show annFrom o n pre (x :: t) = annFrom o n (pre ++ [x]) t by simp [annFrom, hb], ← this]
        unfold makeStep
        simp only [bind, Except.bind, pure, Except.pure]
        congr 2
        · apply vecOf_congr
          intro s'
          rw [compCnt_append, compCnt_single hx]
          by_cases e : s' = s
          · simp [e, hb]
          · simp [e]
        · apply vecOf_congr
          intro s'
          rw [compCnt_append, compCnt_single hx]
          simp [hb]
      · rw [if_neg hb]
        simp only [vecOf_get _ hs, vecOf_set _ hs, pure, Except.pure]
        have hb' : x.2 = false := by simpa using hb
        have := ih' C (A ++ [⟨s, n s - compCnt o pre false s - 1⟩]) (by simpa using hl)
        rw [List.append_assoc, List.append_assoc, List.singleton_append, List.singleton_append] at this
        rw [show creFrom o pre (x :: t) = creFrom o (pre ++ [x]) t by simp [creFrom, hb],
          show annFrom o n pre (x :: t) = ⟨s, n s - compCnt o pre false s - 1⟩ :: annFrom o n (pre ++ [x]) t by
            simp only [annFrom, hb', hsp, Bool.false_eq_true, if_false, List.singleton_append]; congr 2; omega, ← this]
        unfold makeStep
        simp only [bind, Except.bind, pure, Except.pure]
        congr 2
        · apply vecOf_congr
          intro s'
          rw [compCnt_append, compCnt_single hx]
          simp [hb']
        · apply vecOf_congr
          intro s'
          rw [compCnt_append, compCnt_single hx]
          by_cases e : s' = s
          · simp [e, hb']; omega
          · simp [e]

/-- the term of a component -/
def compTerm (o : OSI) (label : Str) (no : Bool) (sym : Symmetry) (l : Component) : STerm :=
  ⟨no, (creFrom o [] l).map (fun i => ⟨.creation, i⟩) ++ (annFrom o (tot o l) [] l).map (fun i => ⟨.annihilation, i⟩),
    [⟨label, creFrom o [] l, (annFrom o (tot o l) [] l).reverse, sym, false⟩]⟩

theorem componentTerm_eq {o : OSI} {s : Str} {l : Component} (h : Spelled s l) (hr : l.Registered o) (label : Str) (no : Bool) (sym : Symmetry) (c : Rational) :
    componentTerm o label s no sym c = .ok ⟨c, compTerm o label no sym l⟩ := by
  obtain ⟨⟨ds, h1, h2⟩, _⟩ := split_spelled h
  have hz : List.replicate o.spaces.length 0 = vecOf o (tot o []) := by
    unfold vecOf tot; simp [List.map_const']
  have hz' : List.replicate o.spaces.length 0 = vecOf o (compCnt o [] true) := by
    unfold vecOf compCnt; simp [List.map_const']
  have hA : annCounts o (split s) = .ok (vecOf o (tot o l)) := by
    unfold annCounts
    rw [h1, hz, annCounts_fold l hr ds [] h2, List.nil_append]
  have hM := makeStep_fold (tot o l) l hr ds [] [] [] h2
  rw [show (fun s => tot o l s - compCnt o [] false s) = tot o l by funext s; simp [compCnt], ← hz', ← h1] at hM
  unfold componentTerm
  simp only [hA, hM, bind, Except.bind, pure, Except.pure, List.nil_append]
  rfl

theorem creFrom_mem {o : OSI} (t : Component) (hr : t.Registered o) : ∀ (pre : Component) (s p : Int),
    (⟨s, p⟩ : Index) ∈ creFrom o pre t ↔ compCnt o pre true s ≤ p ∧ p < compCnt o (pre ++ t) true s := by
  induction t with
  | nil => intro pre s p; simp [creFrom]
  | cons x t ih =>
    intro pre s p
    obtain ⟨s0, hs, hx⟩ := hr x (by simp)
    have hsp := sp_spec hx
    rw [creFrom, List.mem_append, ih (fun y hy => hr y (by simp [hy])), List.append_assoc, List.singleton_append, compCnt_append o pre [x], compCnt_single hx,
      compCnt_append o pre (x :: t), show x :: t = [x] ++ t from rfl, compCnt_append o [x] t, compCnt_single hx, hsp]
    have := compCnt_nonneg o t true s
    by_cases hb : x.2 = true
    · simp only [hb, if_true, List.mem_singleton, Index.mk.injEq, true_and]
      by_cases e : s = s0
      · subst e; simp only [if_true, true_and]; omega
      · simp only [e, false_and, if_false, false_or, zero_add, add_zero]
    · simp [hb]

theorem creFrom_nodup {o : OSI} (t : Component) (hr : t.Registered o) : ∀ (pre : Component), (creFrom o pre t).Nodup := by
  induction t with
  | nil => intro pre; simp [creFrom]
  | cons x t ih =>
    intro pre
    obtain ⟨s0, hs, hx⟩ := hr x (by simp)
    have hr' : Component.Registered o t := fun y hy => hr y (by simp [hy])
    have hsp := sp_spec hx
    rw [creFrom]
    by_cases hb : x.2 = true
    · simp only [hb, if_true, List.singleton_append, List.nodup_cons]
      refine ⟨?_, ih hr' _⟩
      rw [creFrom_mem t hr', hsp, compCnt_append, compCnt_single hx]
      simp [hb]
    · simp only [hb, Bool.false_eq_true, if_false, List.nil_append]
      exact ih hr' _

theorem annFrom_mem {o : OSI} (n : Int → Int) (t : Component) (hr : t.Registered o) : ∀ (pre : Component) (s p : Int),
    (⟨s, p⟩ : Index) ∈ annFrom o n pre t ↔ n s - compCnt o (pre ++ t) false s ≤ p ∧ p < n s - compCnt o pre false s := by
  induction t with
  | nil => intro pre s p; simp [annFrom]
  | cons x t ih =>
    intro pre s p
    obtain ⟨s0, hs, hx⟩ := hr x (by simp)
    have hsp := sp_spec hx
    rw [annFrom, List.mem_append, ih (fun y hy => hr y (by simp [hy])), List.append_assoc, List.singleton_append, compCnt_append o pre [x], compCnt_single hx,
      compCnt_append o pre (x :: t), show x :: t = [x] ++ t from rfl, compCnt_append o [x] t, compCnt_single hx, hsp]
    have := compCnt_nonneg o t false s
    by_cases hb : x.2 = true
    · simp [hb]
    · have hb' : x.2 = false := by simpa using hb
      simp only [hb', Bool.false_eq_true, if_false, List.mem_singleton, Index.mk.injEq, true_and]
      by_cases e : s = s0
      · subst e; simp only [if_true, true_and]; omega
      · simp only [e, false_and, if_false, false_or, zero_add, add_zero]

theorem annFrom_nodup {o : OSI} (n : Int → Int) (t : Component) (hr : t.Registered o) : ∀ (pre : Component), (annFrom o n pre t).Nodup := by
  induction t with
  | nil => intro pre; simp [annFrom]
  | cons x t ih =>
    intro pre
    obtain ⟨s0, hs, hx⟩ := hr x (by simp)
    have hr' : Component.Registered o t := fun y hy => hr y (by simp [hy])
    have hsp := sp_spec hx
    rw [annFrom]
    by_cases hb : x.2 = true
    · simp only [hb, if_true, List.nil_append]
      exact ih hr' _
    · have hb' : x.2 = false := by simpa using hb
      simp only [hb', Bool.false_eq_true, if_false, List.singleton_append, List.nodup_cons]
      refine ⟨?_, ih hr' _⟩
      rw [annFrom_mem n t hr', hsp, compCnt_append, compCnt_append, compCnt_single hx]
      simp only [hb', and_self, if_true]
      omega

theorem creFrom_spaces {o : OSI} (t : Component) (hr : t.Registered o) : ∀ (pre : Component),
    (creFrom o pre t).map (fun i => (Except.ok i.space : Res Int)) = (t.filter (fun x => x.2)).map (fun x => o.labelToSpace x.1) := by
  induction t with
  | nil => intro pre; simp [creFrom]
  | cons x t ih =>
    intro pre
    obtain ⟨s0, hs, hx⟩ := hr x (by simp)
    have hsp := sp_spec hx
    rw [creFrom, List.map_append, ih (fun y hy => hr y (by simp [hy]))]
    by_cases hb : x.2 = true
    · simp [hb, hsp, hx]
    · simp [hb]

theorem annFrom_spaces {o : OSI} (n : Int → Int) (t : Component) (hr : t.Registered o) : ∀ (pre : Component),
    (annFrom o n pre t).map (fun i => (Except.ok i.space : Res Int)) = (t.filter (fun x => !x.2)).map (fun x => o.labelToSpace x.1) := by
  induction t with
  | nil => intro pre; simp [annFrom]
  | cons x t ih =>
    intro pre
    obtain ⟨s0, hs, hx⟩ := hr x (by simp)
    have hsp := sp_spec hx
    rw [annFrom, List.map_append, ih (fun y hy => hr y (by simp [hy]))]
    by_cases hb : x.2 = true
    · simp [hb]
    · simp [hb, hsp, hx]

theorem compTerm_spec {o : OSI} {l : Component} (hr : l.Registered o) (label : Str) (no : Bool) (sym : Symmetry) :
    IsComponentTerm o label no sym l (creFrom o [] l) (annFrom o (tot o l) [] l) (compTerm o label no sym l) := by
  have z : ∀ b s, compCnt o [] b s = 0 := fun b s => rfl
  have hmc := creFrom_mem l hr []
  have hma := annFrom_mem (tot o l) l hr []
  simp only [List.nil_append, z, sub_zero] at hmc hma
  refine ⟨rfl, rfl, rfl, ?_, creFrom_spaces l hr [], annFrom_spaces _ l hr [], ?_⟩
  · refine List.nodup_append.2 ⟨creFrom_nodup l hr [], annFrom_nodup _ l hr [], ?_⟩
    rintro ⟨s, p⟩ h1 _ h2 rfl
    rw [hmc] at h1
    rw [hma, tot_eq] at h2
    omega
  · intro s p
    have := compCnt_nonneg o l true s
    have := compCnt_nonneg o l false s
    rw [List.mem_append, hmc, hma, tot_eq]
    show _ ↔ 0 ≤ p ∧ p < tot o l s
    rw [tot_eq]
    omega

theorem operatorExpr_fold {o : OSI} (label : Str) (no : Bool) (sym : Symmetry) (c : Rational) {cs : List Str} {ls : List Component}
    (h : List.Forall₂ Spelled cs ls) (hr : ∀ l ∈ ls, Component.Registered o l) (r : Expr) :
    cs.foldlM (m := Except Fault) (fun (r : Expr) s => do
      let t ← componentTerm o label s no sym c
      return Lin.add r t.base (Rational.mk2 1 1)) r =
      .ok (ls.foldl (fun r l => Lin.add r (compTerm o label no sym l) (Rational.mk2 1 1)) r) := by
  induction h generalizing r with
  | nil => rfl
  | @cons a b l₁ l₂ h1 _ ih =>
    rw [List.foldlM_cons, componentTerm_eq h1 (hr _ (by simp))]
    simp only [bind, Except.bind, pure, Except.pure, List.foldl_cons]
    have := ih (fun l hl => hr l (by simp [hl])) (Lin.add r (compTerm o label no sym b) (Rational.mk2 1 1))
    simp only [bind, Except.bind, pure, Except.pure] at this
    exact this

/-- **C36**, for coefficient 1: `operator_expr` gives one term per component, well formed in the sense of
`IsComponentTerm`, and the coefficient of a term is the number of components that give it.  The theorem holds for
every value of the argument `coefficient`, which is not used: see `C36_coefficient_ignored`. -/
theorem C36_operator_expr_partial {o : OSI} (label : Str) (no : Bool) (sym : Symmetry) (c : Rational) :
    ∃ term : Component → STerm,
      (∀ l : Component, l.Registered o → ∃ C A, IsComponentTerm o label no sym l C A (term l)) ∧
      ∀ (cs : List Str) (ls : List Component), List.Forall₂ Spelled cs ls → (∀ l ∈ ls, Component.Registered o l) →
        ∃ e, operatorExpr o label cs no sym c = .ok e ∧ Lin.WF e ∧
          ∀ k, Lin.coef e k = ((ls.countP (fun l => CppEq.eq (term l) k) : Nat) : ℚ) := by
  refine ⟨compTerm o label no sym, fun l hr => ⟨_, _, compTerm_spec hr label no sym⟩, ?_⟩
  intro cs ls h hr
  refine ⟨_, operatorExpr_fold label no sym c h hr [], ?_⟩
  have hc : Canon (Rational.mk2 1 1) := by constructor <;> decide
  obtain ⟨h0, h2, h3⟩ := Lin.fold_add ls (compTerm o label no sym) (fun _ => Rational.mk2 1 1) (fun _ _ => hc) ([] : Expr) Lin.ok_nil
  refine ⟨h2 Lin.wf_nil, fun k => ?_⟩
  rw [h3 k, Lin.coef_nil, zero_add]
  clear h h0 h2 h3 hr
  induction ls with
  | nil => simp
  | cons l ls ih =>
    rw [List.map_cons, List.sum_cons, ih, List.countP_cons]
    by_cases hk : CppEq.eq (compTerm o label no sym l) k = true
    · rw [if_pos (eqv_iff.2 ((EqvIsEq.iff _ _).1 hk)), if_pos hk]
      push_cast
      rw [show toRat (Rational.mk2 1 1) = 1 by rw [show Rational.mk2 1 1 = ⟨1, 1⟩ by decide]; norm_num [toRat]]
      ring
    · rw [if_neg (fun h => hk ((EqvIsEq.iff _ _).2 (eqv_iff.1 h))), if_neg hk]
      simp

/-- **C36**, negation of the clause on the coefficient: the argument `coefficient` has no effect. -/
theorem C36_coefficient_ignored (o : OSI) (label : Str) (cs : List Str) (no : Bool) (sym : Symmetry) (c c' : Rational) :
    operatorExpr o label cs no sym c = operatorExpr o label cs no sym c' := by
  unfold operatorExpr
  congr 1
  funext r s
  unfold componentTerm
  simp only [bind_assoc, pure_bind]

-- "o+ v+, v o" : two spaces, two operators each
def exComp : Component := [('o', true), ('v', true), ('v', false), ('o', false)]
theorem exComp_spelled : Spelled "o+ v+, v o".toList exComp := by
  refine .cons ('o', true) '+' [' '] rfl rfl (by decide) (by decide) (s := "v+, v o".toList) ?_
  refine .cons ('v', true) '+' [',', ' '] rfl rfl (by decide) (by decide) (s := "v o".toList) ?_
  refine .cons ('v', false) '+' [' '] rfl rfl (by decide) (by decide) (s := "o".toList) ?_
  exact .one ('o', false) '+' rfl rfl
theorem exComp_reg : Component.Registered (runReg OSI.empty ccHistory) exComp := by
  intro x hx
  simp only [exComp, List.mem_cons, List.not_mem_nil, or_false] at hx
  rcases hx with rfl | rfl | rfl | rfl
  · exact ⟨0, by decide, by decide⟩
  · exact ⟨1, by decide, by decide⟩
  · exact ⟨1, by decide, by decide⟩
  · exact ⟨0, by decide, by decide⟩
/-- the call with coefficient 1/4 gives the coefficient 1 -/
theorem C36_coefficient_witness :
    (operatorExpr (runReg OSI.empty ccHistory) ['h'] ["o+ v+, v o".toList] false .antisymmetric ⟨1, 4⟩).toOption =
      some [(⟨false, [⟨.creation, ⟨0, 0⟩⟩, ⟨.creation, ⟨1, 0⟩⟩, ⟨.annihilation, ⟨1, 1⟩⟩, ⟨.annihilation, ⟨0, 1⟩⟩],
        [⟨['h'], [⟨0, 0⟩, ⟨1, 0⟩], [⟨0, 1⟩, ⟨1, 1⟩], .antisymmetric, false⟩]⟩, ⟨1, 1⟩)] := by decide +kernel
end Wicked
