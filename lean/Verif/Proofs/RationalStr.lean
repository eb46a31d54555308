import Verif.Proofs.Rational
import Verif.Proofs.Str
/-! # `rational::str` and `make_rational_from_str` -/
namespace Wicked.Rational

theorem head_ws {ws : Str} (h : ∀ c ∈ ws, isSpace c = true) {a : Char} (ha : ws.head? = some a) :
    isSpace a = true := by
  cases ws with
  | nil => simp at ha
  | cons b t => simp at ha; subst ha; exact h _ (by simp)

/-- decomposition of a string according to the grammar `ws* [+-]? digits* ('/' digits*)? ws*` -/
structure Decomp (s : Str) (m : RatMatch) (ws1 sgn ws2 : Str) : Prop where
  hws1 : ∀ c ∈ ws1, isSpace c = true
  hws2 : ∀ c ∈ ws2, isSpace c = true
  hsgn : sgn = [] ∧ m.minus = false ∨ sgn = ['+'] ∧ m.minus = false ∨ sgn = ['-'] ∧ m.minus = true
  hns : ∀ c ∈ m.numStr, isDigit c = true
  hds : ∀ c ∈ m.denStr, isDigit c = true
  hslash : m.slash = false → m.denStr = []
  eq : s = ws1 ++ (sgn ++ (m.numStr ++ ((if m.slash then ['/'] else []) ++ (m.denStr ++ ws2))))

theorem splitSign_eq (s : Str) :
    (∃ sgn, s = sgn ++ (splitSign s).2 ∧
      (sgn = [] ∧ (splitSign s).1 = false ∨ sgn = ['+'] ∧ (splitSign s).1 = false ∨
        sgn = ['-'] ∧ (splitSign s).1 = true)) := by
  unfold splitSign
  split
  · exact ⟨['-'], by simp⟩
  · exact ⟨['+'], by simp⟩
  · exact ⟨[], by simp⟩

theorem splitSlash_eq (s : Str) :
    s = (if (splitSlash s).1 then ['/'] else []) ++ (splitSlash s).2 := by
  unfold splitSlash; split <;> simp

theorem splitSlash_noslash {s : Str} (h : ∀ t, s ≠ '/' :: t) : splitSlash s = (false, s) := by
  unfold splitSlash; split
  · exact absurd rfl (h _)
  · rfl

theorem splitSign_nosign {s : Str} (h : ∀ t, s ≠ '-' :: t) (h' : ∀ t, s ≠ '+' :: t) :
    splitSign s = (false, s) := by
  unfold splitSign; split
  · exact absurd rfl (h _)
  · exact absurd rfl (h' _)
  · rfl

theorem matchRat_sound {s : Str} {m : RatMatch} (h : matchRat s = some m) :
    ∃ ws1 sgn ws2, Decomp s m ws1 sgn ws2 := by
  unfold matchRat at h
  simp only at h
  split at h
  case isFalse => cases h
  case isTrue hall =>
  cases h
  obtain ⟨sgn, h1, h2⟩ := splitSign_eq (s.dropWhile isSpace)
  generalize hp : splitSign (s.dropWhile isSpace) = p at *
  have h3 := splitSlash_eq (p.2.dropWhile isDigit)
  generalize hq : splitSlash (p.2.dropWhile isDigit) = q at *
  refine ⟨s.takeWhile isSpace, sgn, q.2.dropWhile isDigit, ?_⟩
  refine ⟨fun c hc => mem_takeWhile hc, List.all_eq_true.mp hall, h2, fun c hc => mem_takeWhile hc,
    fun c hc => mem_takeWhile hc, ?_, ?_⟩
  · intro hs
    simp only at hs ⊢
    rw [hs] at h3
    simp only [Bool.false_eq_true, if_false, List.nil_append] at h3
    rw [← h3]
    have := List.head?_dropWhile_not isDigit p.2
    cases hd : List.dropWhile isDigit p.2 with
    | nil => simp
    | cons a t => rw [hd] at this; simp at this; simp [this]
  · simp only
    rw [List.takeWhile_append_dropWhile, ← h3, List.takeWhile_append_dropWhile, ← h1,
      List.takeWhile_append_dropWhile]

theorem matchRat_complete {s : Str} {m : RatMatch} {ws1 sgn ws2 : Str} (d : Decomp s m ws1 sgn ws2) :
    matchRat s = some m := by
  obtain ⟨hws1, hws2, hsgn, hns, hds, hslash, rfl⟩ := d
  have hw : ∀ a, ws2.head? = some a → isDigit a = false :=
    fun a ha => isSpace_not_digit (head_ws hws2 ha)
  rcases m with ⟨mi, ns, sl, ds⟩
  simp only at *
  -- the tail after the sign
  generalize htail : ns ++ ((if sl then ['/'] else []) ++ (ds ++ ws2)) = tail at *
  have hA : tail.takeWhile isDigit = ns ∧ splitSlash (tail.dropWhile isDigit) = (sl, ds ++ ws2) := by
    subst htail
    cases sl with
    | true =>
      have h1 : ∀ a, (('/' : Char) :: (ds ++ ws2)).head? = some a → isDigit a = false := by
        intro a ha; simp at ha; subst ha; decide
      simp only [if_true, List.singleton_append]
      rw [takeWhile_span hns h1, dropWhile_span hns h1]
      simp [splitSlash]
    | false =>
      have hd : ds = [] := hslash rfl
      subst hd
      simp only [Bool.false_eq_true, if_false, List.nil_append]
      rw [takeWhile_span hns hw, dropWhile_span hns hw]
      refine ⟨rfl, splitSlash_noslash ?_⟩
      intro t ht; subst ht; have := hws2 '/' (by simp); revert this; decide
  have hB : (ds ++ ws2).takeWhile isDigit = ds ∧ (ds ++ ws2).dropWhile isDigit = ws2 :=
    ⟨takeWhile_span hds hw, dropWhile_span hds hw⟩
  -- the result once the sign split is known
  have hfin : ∀ (x : Str), x = ws1 ++ (sgn ++ tail) →
      splitSign (x.dropWhile isSpace) = (mi, tail) → matchRat x = some ⟨mi, ns, sl, ds⟩ := by
    intro x _ hx
    unfold matchRat
    simp only [hx, hA.1, hA.2, hB.1, hB.2]
    simp [List.all_eq_true.mpr hws2]
  have hdw : ∀ y : Str, (∀ a, y.head? = some a → isSpace a = false) →
      (ws1 ++ y).dropWhile isSpace = y := fun y hy => dropWhile_span hws1 hy
  rcases hsgn with ⟨rfl, rfl⟩ | ⟨rfl, rfl⟩ | ⟨rfl, rfl⟩
  · -- no sign
    by_cases hall : ns = [] ∧ sl = false
    · -- only white space
      obtain ⟨rfl, rfl⟩ := hall
      have := hslash rfl
      subst this
      simp at htail
      subst htail
      have hx : (ws1 ++ ([] ++ ws2)).dropWhile isSpace = [] := by
        rw [List.dropWhile_append_of_pos hws1]
        simpa using dropWhile_span (l := ws2) (r := []) hws2 (by simp)
      unfold matchRat
      rw [hx]
      simp [splitSign, splitSlash]
    · apply hfin _ rfl
      have hh : ∀ a, tail.head? = some a → isSpace a = false ∧ a ≠ '-' ∧ a ≠ '+' := by
        intro a ha
        subst htail
        cases ns with
        | cons b t =>
          simp at ha; subst ha
          have hb := hns b (by simp)
          refine ⟨isDigit_not_space hb, ?_, ?_⟩ <;> (rintro rfl; revert hb; decide)
        | nil =>
          cases sl with
          | false => simp at hall
          | true => simp at ha; subst ha; decide
      rw [List.nil_append, hdw tail (fun a ha => (hh a ha).1)]
      apply splitSign_nosign
      · rintro t rfl; exact (hh '-' rfl).2.1 rfl
      · rintro t rfl; exact (hh '+' rfl).2.2 rfl
  · apply hfin _ rfl
    rw [hdw _ (by intro a ha; simp at ha; subst ha; decide)]
    simp [splitSign]
  · apply hfin _ rfl
    rw [hdw _ (by intro a ha; simp at ha; subst ha; decide)]
    simp [splitSign]

/-- value of the numerator string (an empty one counts as 1) -/
def numVal (s : Str) : Nat := if s = [] then 1 else digitsVal s

theorem makeFromStr_of_match {s : Str} {m : RatMatch} (h : matchRat s = some m) :
    makeFromStr s =
      if m.slash = true ∧ (m.numStr = [] ∨ m.denStr = []) then .error .throw
      else if m.numStr ≠ [] ∧ intMax < digitsVal m.numStr then .error .throw
      else if m.slash = true ∧ intMax < digitsVal m.denStr then .error .throw
      else .ok (mk2 ((if m.minus then -1 else 1) * (numVal m.numStr : Int))
              (if m.slash then (digitsVal m.denStr : Int) else 1)) := by
  rcases m with ⟨mi, ns, sl, ds⟩
  unfold makeFromStr
  rw [h]
  by_cases h1 : digitsVal ns ≤ intMax <;> by_cases h2 : digitsVal ds ≤ intMax <;>
  (have g1 := h1; have g2 := h2; simp only [← not_lt] at g1 g2
   have e1 : stoi ns = if digitsVal ns ≤ intMax then .ok (digitsVal ns : Int) else .error .throw := rfl
   have e2 : stoi ds = if digitsVal ds ≤ intMax then .ok (digitsVal ds : Int) else .error .throw := rfl
   simp only [h1, h2, if_true, if_false] at e1 e2
   cases ns <;> cases ds <;> cases sl <;>
    simp [e1, e2, g1, g2, numVal, bind, Except.bind, pure, Except.pure, throw, throwThe, MonadExceptOf.throw])

theorem makeFromStr_nomatch {s : Str} (h : matchRat s = none) : makeFromStr s = .error .throw := by
  unfold makeFromStr; rw [h]

/-- how `intStr` of a number splits into sign and digits -/
theorem intStr_split (z : Int) : ∃ sgn, intStr z = sgn ++ natStr z.natAbs ∧
    (sgn = [] ∧ 0 ≤ z ∨ sgn = ['-'] ∧ z < 0) := by
  unfold intStr; split
  · exact ⟨['-'], by simp; omega⟩
  · exact ⟨[], by simp; omega⟩

theorem makeFromStr_str (r : Rational) (sign : Bool) (hc : Canon r)
    (hn : r.num.natAbs ≤ intMax) (hd : r.den ≤ intMax) : makeFromStr (str r sign) = .ok r := by
  have hfix : ∀ n d : Int, Canon ⟨n, d⟩ → mk2 n d = ⟨n, d⟩ := by
    intro n d h
    exact toRat_inj (canon_mk2 n d (by have := h.1; simp at this; omega)) h (by rw [toRat_mk2]; rfl)
  have hnp : ¬ intMax < r.num.natAbs := by omega
  have hws : ∀ c ∈ ([] : Str), isSpace c = true := by simp
  have hdg : ∀ c ∈ ([] : Str), isDigit c = true := by simp
  by_cases h0 : r.num = 0
  · have e : r = zero := canon_num_zero hc h0
    subst e
    cases sign <;> rfl
  -- the sign printed in front of the digits
  have key : ∀ (dstr : Str) (sl : Bool), (sl = true → dstr = natStr r.den.natAbs) → (sl = false → dstr = []) →
      matchRat ((if sign && decide (r.num > 0) then ['+'] else []) ++ intStr r.num ++
        (if sl then ['/'] else []) ++ dstr)
       = some ⟨decide (r.num < 0), natStr r.num.natAbs, sl, dstr⟩ := by
    intro dstr sl h1 h2
    obtain ⟨sg, hs, hsg⟩ := intStr_split r.num
    have hsgn : ∃ sgn, (if sign && decide (r.num > 0) then ['+'] else []) ++ sg = sgn ∧
        (sgn = [] ∧ (decide (r.num < 0)) = false ∨ sgn = ['+'] ∧ (decide (r.num < 0)) = false ∨
          sgn = ['-'] ∧ (decide (r.num < 0)) = true) := by
      rcases hsg with ⟨rfl, h⟩ | ⟨rfl, h⟩
      · cases sign
        · exact ⟨[], by simp; omega⟩
        · exact ⟨['+'], by simp; omega⟩
      · have : ¬ r.num > 0 := by omega
        exact ⟨['-'], by simp [this, h]⟩
    obtain ⟨sgn, e, hsgn⟩ := hsgn
    apply matchRat_complete (ws1 := []) (sgn := sgn) (ws2 := [])
    refine ⟨hws, hws, hsgn, natStr_digits _, ?_, h2, ?_⟩
    · cases sl with
      | true => simp only; rw [h1 rfl]; exact natStr_digits _
      | false => simp only; rw [h2 rfl]; exact hdg
    · rw [hs, ← e]; simp
  have hsgnmul : (if decide (r.num < 0) = true then (-1 : Int) else 1) * (r.num.natAbs : Int) = r.num := by
    split <;> rename_i h <;> simp only [decide_eq_true_eq] at h <;> omega
  have hval : numVal (natStr r.num.natAbs) = r.num.natAbs := by
    unfold numVal; simp [natStr_ne_nil, digitsVal_natStr]
  unfold str
  simp only [beq_iff_eq, h0, if_false]
  by_cases hden : r.den = 1
  · simp only [hden, if_true]
    have hr : r = ⟨r.num, 1⟩ := by cases r; simp_all
    split
    · rename_i h; rw [hr, h]; cases sign <;> rfl
    · split
      · have := key [] false (by simp) (by simp)
        simp only [Bool.false_eq_true, if_false, List.append_nil] at this
        rw [makeFromStr_of_match this]
        simp only [digitsVal_natStr, hnp, and_false, if_false, hval, hsgnmul, Bool.false_eq_true,
          false_and]
        rw [hfix _ _ (by rw [hr] at hc; exact hc), ← hr]
      · rename_i h; simp at h; rw [hr, h]; cases sign <;> rfl
  · simp only [hden, if_false]
    have hdn : intStr r.den = natStr r.den.natAbs := by
      unfold intStr; rw [if_neg (by have := hc.1; omega)]
    have hdv : (r.den.natAbs : Int) = r.den := by have := hc.1; omega
    have := key (natStr r.den.natAbs) true (by simp) (by simp)
    simp only [if_true] at this
    rw [hdn, makeFromStr_of_match this]
    have hd' : ¬ intMax < r.den.natAbs := by omega
    simp only [digitsVal_natStr, hnp, and_false, if_false, hval, hsgnmul, if_true, natStr_ne_nil,
      or_self, hd', hdv]
    rw [hfix _ _ hc]

end Wicked.Rational
