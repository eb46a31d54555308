import Verif.Props.Print
/-! # C77: printed terms and equations -/
namespace Wicked
open CppLt CppEq Rational

section
variable {ops : List RegOp}
local notation "𝔬" => runReg OSI.empty ops

/-- a coefficient that is separated by a blank is read back -/
theorem capture_blank {c : Rational} (hc : Canon c) (hn : c.num.natAbs ≤ intMax) (hd : c.den ≤ intMax) {x : Str}
    (hx : ∀ a, x.head? = some a → isDigit a = false ∧ a ≠ '/' ∧ isSpace a = false ∧ a ≠ '+' ∧ a ≠ '-') :
    makeFromStr (factorCapture (c.str false ++ ' ' :: x)) = .ok c := by
  have hpar := makeFromStr_str c false hc hn hd
  by_cases h0 : c.num = 0
  · have hs : c.str false = ['0'] := by unfold Rational.str; simp [h0]
    rw [hs] at hpar ⊢
    have := factorCapture_eq (sgn := []) (ns := ['0']) (ds := []) (sl := false) (r := ' ' :: x) (by simp) (by decide) (by simp) (by simp) (by simp)
      (by intro a ha; simp at ha; subst ha; decide)
    simp only [List.nil_append, Bool.false_eq_true, if_false, List.append_nil] at this
    rw [this]; exact hpar
  · obtain ⟨sgn, ns, ds, sl, hsh⟩ := str_shape hc h0 false
    by_cases he : c.str false = []
    · have h1 : factorCapture (c.str false ++ ' ' :: x) = factorCapture (c.str false ++ x) := by
        rw [he]
        unfold factorCapture
        rw [List.nil_append, List.nil_append, List.dropWhile_cons_of_pos (by decide)]
      rw [h1, hsh.capture, hpar]
      intro a ha
      have := hx a ha
      exact ⟨this.1, this.2.1, fun _ => this.2.2⟩
    · rw [hsh.capture, hpar]
      intro a ha
      simp at ha; subst ha
      exact ⟨by decide, by decide, fun h => absurd h he⟩

theorem coef_chars {c : Rational} (hc : Canon c) : ∀ x ∈ c.str false, isDigit x = true ∨ x = '+' ∨ x = '-' ∨ x = '/' := by
  by_cases h0 : c.num = 0
  · have hs : c.str false = ['0'] := by unfold Rational.str; simp [h0]
    rw [hs]; decide
  · obtain ⟨sgn, ns, ds, sl, hsh⟩ := str_shape hc h0 false
    exact hsh.chars

/-- a line with a blank after the coefficient is read back -/
theorem parse_blank {t : STerm} {c : Rational} (hp : t.Parsable 𝔬) (hc : Canon c) (hn : c.num.natAbs ≤ intMax) (hd : c.den ≤ intMax) :
    makeExpression 𝔬 (c.str false ++ ' ' :: body 𝔬 t) .antisymmetric = .ok (Lin.add [] (t.reread 𝔬 []) c) := by
  have hok := hp.ok
  have hf : ∀ x ∈ c.str false ++ [' '], isDigit x = true ∨ x = '+' ∨ x = '-' ∨ x = '/' ∨ x = ' ' := by
    intro x hx
    rcases List.mem_append.mp hx with h | h
    · have := coef_chars hc x h; tauto
    · simp at h; tauto
  have e : c.str false ++ ' ' :: body 𝔬 t = (c.str false ++ [' ']) ++ body 𝔬 t := by simp
  rw [e, parse_line (t' := t) (c := c) (by simp) hok hf hok]
  · congr 2
    unfold STerm.reread
    cases t.tensors with
    | nil => rfl
    | cons x xs => rfl
  · rw [findall_tensor_miss (by decide), scan_tensors hok]
    intro hx
    rcases hf _ hx with h | h | h | h | h <;> exact absurd h (by decide)
  · rw [← e]
    exact capture_blank hc hn hd (body_head hok hp.label)

/-- a term without a coefficient is read back -/
theorem parse_bare {t : STerm} (hp : t.Parsable 𝔬) (hb : body 𝔬 t ≠ []) :
    makeExpression 𝔬 (body 𝔬 t) .antisymmetric = .ok [(t.reread 𝔬 [], Rational.ofInt 1)] := by
  have hok := hp.ok
  have := parse_line (t := t) (t' := t) (f := []) (c := Rational.ofInt 1) (by simpa using hb) hok (by simp) hok (by rw [List.nil_append, scan_tensors hok]) (by
    rw [List.nil_append]
    have h := capture_blank (c := Rational.ofInt 1) (canon_ofInt 1) (by decide) (by decide) (body_head hok hp.label)
    rw [← h]
    congr 1)
  rw [List.nil_append] at this
  rw [this]
  have e : (⟨t.flag 𝔬, t.ops, t.tensors.map Tensor.plain⟩ : STerm) = t.reread 𝔬 [] := by
    unfold STerm.reread
    cases t.tensors with
    | nil => rfl
    | cons x xs => rfl
  rw [e]; rfl

/-- the printed term determines tensors and operators -/
theorem body_inj {t u : STerm} (ht : t.Parsable 𝔬) (hu : u.Parsable 𝔬) (h : body 𝔬 t = body 𝔬 u) : t.key = u.key ∧ t.flag 𝔬 = u.flag 𝔬 := by
  have h1 := parse_blank (c := Rational.ofInt 1) ht (canon_ofInt 1) (by decide) (by decide)
  have h2 := parse_blank (c := Rational.ofInt 1) hu (canon_ofInt 1) (by decide) (by decide)
  rw [h, h2] at h1
  have h3 : ([(u.reread 𝔬 [], Rational.ofInt 1)] : Expr) = [(t.reread 𝔬 [], Rational.ofInt 1)] := Except.ok.inj h1
  have h4 : u.reread 𝔬 [] = t.reread 𝔬 [] := by simpa using h3
  exact ⟨by rw [← reread_key (ops := ops) t, ← reread_key (ops := ops) u, h4], by
    have := congrArg STerm.normalOrdered h4
    exact this.symm⟩

theorem body_no {t : STerm} (ht : t.Parsable 𝔬) : '=' ∉ body 𝔬 t := by
  intro hx
  have hok := ht.ok
  rcases mem_join hx with h | ⟨w, hw, hm⟩
  · simp at h
  · rcases List.mem_append.mp hw with h | h
    · obtain ⟨y, hy, rfl⟩ := List.mem_map.mp h
      rcases tw_chars (hok.index y hy) (hok.label y hy) _ hm with h | h | h | h | h | h <;> exact absurd h (by decide)
    · rcases mem_opWords h with rfl | rfl | ⟨a, ha, rfl⟩
      · simp at hm
      · simp at hm
      · rcases ow_chars (hok.opIndex a ha) _ hm with h | h | h | h | h <;> exact absurd h (by decide)

/-- the printed equation -/
theorem equation_text {q : Equation} (hl : q.lhs.Parsable 𝔬) (hr : q.rhs.Parsable 𝔬) :
    q.str 𝔬 = .ok (body 𝔬 q.lhs ++ [' ', '+', '=', ' '] ++ (q.factor.str false ++ ' ' :: body 𝔬 q.rhs)) := by
  unfold Equation.str
  rw [term_str hl.ok, term_str hr.ok]
  simp [bind, Except.bind, pure, Except.pure, join]

theorem isEqual_add {t : STerm} {c : Rational} : Lin.isEqual (Lin.add [] (t.reread 𝔬 []) c) (Lin.add [] t c) = true := by
  unfold Lin.add
  by_cases h : Rational.eq c (Rational.ofInt 0) = true
  · simp [SMap.find, h]; rfl
  · have h' : Rational.eq c (Rational.ofInt 0) = false := by simpa using h
    simp only [SMap.find, h', Bool.false_eq_true, if_false, SMap.insert]
    show ((eq (t.reread 𝔬 []) t && Rational.eq c c) && true) = true
    rw [sterm_eq.mpr (reread_key t)]
    simp [Rational.eq]

/-- **C77** (equations): an equation over parsable labels prints as `lhs += rhs`, where `lhs` is the printed left-hand side; `expression` applied
to the text after ` += ` returns an expression that is `==` to `rhs_expression()` (and the same in every respect when the tensors and labels of normal ordering
survive printing, cf. C57); `expression` applied to the text before ` += `, if not empty, returns the left-hand side with coefficient 1. -/
theorem C77_equation_roundtrip (q : Equation) (hl : q.lhs.Parsable 𝔬) (hr : q.rhs.Parsable 𝔬) (hc : Canon q.factor)
    (hn : q.factor.num.natAbs ≤ intMax) (hd : q.factor.den ≤ intMax) :
    ∃ l r e, q.lhs.str 𝔬 = .ok l ∧ q.str 𝔬 = .ok (l ++ " += ".toList ++ r) ∧
      makeExpression 𝔬 r .antisymmetric = .ok e ∧ Lin.isEqual e q.rhsExpression = true ∧ (q.rhs.Plain 𝔬 → e = q.rhsExpression) ∧
      '=' ∉ l ∧ '=' ∉ r ∧
      (l ≠ [] → ∃ t, makeExpression 𝔬 l .antisymmetric = .ok [(t, Rational.ofInt 1)] ∧ eq t q.lhs = true ∧ (q.lhs.Plain 𝔬 → t = q.lhs)) := by
  refine ⟨body 𝔬 q.lhs, _, _, term_str hl.ok, equation_text hl hr, parse_blank hr hc hn hd, isEqual_add, ?_, body_no hl, ?_, ?_⟩
  · intro hp
    rw [plain_reread hp]; rfl
  · intro hx
    rcases List.mem_append.mp hx with hx | hx
    · rcases coef_chars hc _ hx with h | h | h | h <;> exact absurd h (by decide)
    · rcases List.mem_cons.mp hx with hx | hx
      · exact absurd hx (by decide)
      · exact body_no hr hx
  · intro hne
    exact ⟨_, parse_bare hl hne, sterm_eq.mpr (reread_key _), fun hp => plain_reread hp⟩

/-- **C77** (equations): two equations over parsable labels that print the same text are `==`. -/
theorem C77_equation_injective (q q' : Equation) (hl : q.lhs.Parsable 𝔬) (hr : q.rhs.Parsable 𝔬) (hl' : q'.lhs.Parsable 𝔬) (hr' : q'.rhs.Parsable 𝔬)
    (hc : Canon q.factor) (hc' : Canon q'.factor)
    (hn : q.factor.num.natAbs ≤ intMax ∧ q.factor.den ≤ intMax) (hn' : q'.factor.num.natAbs ≤ intMax ∧ q'.factor.den ≤ intMax)
    (h : q.str 𝔬 = q'.str 𝔬) :
    Equation.eqv q q' = true ∧ (q.lhs.Plain 𝔬 → q'.lhs.Plain 𝔬 → q.rhs.Plain 𝔬 → q'.rhs.Plain 𝔬 → q = q') := by
  rw [equation_text hl hr, equation_text hl' hr'] at h
  replace h := Except.ok.inj h
  have h' : (body 𝔬 q.lhs ++ [' ', '+']) ++ '=' :: (' ' :: (q.factor.str false ++ ' ' :: body 𝔬 q.rhs)) =
      (body 𝔬 q'.lhs ++ [' ', '+']) ++ '=' :: (' ' :: (q'.factor.str false ++ ' ' :: body 𝔬 q'.rhs)) := by simpa using h
  have no : ∀ t : STerm, t.Parsable 𝔬 → '=' ∉ body 𝔬 t ++ [' ', '+'] := by
    intro t ht hx
    rcases List.mem_append.mp hx with hx | hx
    · exact body_no ht hx
    · exact absurd hx (by decide)
  obtain ⟨h1, h2⟩ := first_split' (no _ hl) (no _ hl') h'
  have e1 := List.append_cancel_right h1
  have ns : ∀ c : Rational, Canon c → ' ' ∉ c.str false := by
    intro c hc hx
    rcases coef_chars hc _ hx with h | h | h | h <;> exact absurd h (by decide)
  obtain ⟨e2, e3⟩ := first_split' (ns _ hc) (ns _ hc') (List.cons.inj h2).2
  have ef : q.factor = q'.factor := by
    have a := makeFromStr_str q.factor false hc hn.1 hn.2
    have b := makeFromStr_str q'.factor false hc' hn'.1 hn'.2
    rw [e2, b] at a
    exact (Except.ok.inj a).symm
  have hreread : ∀ t u : STerm, t.Parsable 𝔬 → u.Parsable 𝔬 → body 𝔬 t = body 𝔬 u → t.reread 𝔬 [] = u.reread 𝔬 [] := by
    intro t u ht hu h
    have h1 := parse_blank (c := Rational.ofInt 1) ht (canon_ofInt 1) (by decide) (by decide)
    have h2 := parse_blank (c := Rational.ofInt 1) hu (canon_ofInt 1) (by decide) (by decide)
    rw [h, h2] at h1
    have h3 : ([(u.reread 𝔬 [], Rational.ofInt 1)] : Expr) = [(t.reread 𝔬 [], Rational.ofInt 1)] := Except.ok.inj h1
    simpa using h3.symm
  refine ⟨?_, fun p1 p2 p3 p4 => ?_⟩
  · unfold Equation.eqv
    rw [sterm_eq.mpr (body_inj hl hl' e1).1, sterm_eq.mpr (body_inj hr hr' e3).1, ef]
    simp [Rational.eq]
  · have a := hreread _ _ hl hl' e1
    have b := hreread _ _ hr hr' e3
    rw [plain_reread p1, plain_reread p2] at a
    rw [plain_reread p3, plain_reread p4] at b
    obtain ⟨_, _, _⟩ := q
    obtain ⟨_, _, _⟩ := q'
    simp only at a b ef
    rw [a, b, ef]

/-- **C77** (terms): a `Term` over parsable labels prints a text from which `expression` gives the term back, with its coefficient (nothing if the coefficient is
zero). -/
theorem C77_term_roundtrip (t : CTerm) (hp : t.base.Parsable 𝔬) (hc : Canon t.coefficient)
    (hn : t.coefficient.num.natAbs ≤ intMax) (hd : t.coefficient.den ≤ intMax) :
    ∃ s e, t.str 𝔬 = .ok s ∧ s ≠ [] ∧ makeExpression 𝔬 s .antisymmetric = .ok e ∧ Lin.isEqual e (Lin.add [] t.base t.coefficient) = true ∧
      (t.base.Plain 𝔬 → e = Lin.add [] t.base t.coefficient) := by
  have fin : ∀ s, t.str 𝔬 = .ok s → s ≠ [] → makeExpression 𝔬 s .antisymmetric = .ok (Lin.add [] (t.base.reread 𝔬 []) t.coefficient) →
      ∃ s e, t.str 𝔬 = .ok s ∧ s ≠ [] ∧ makeExpression 𝔬 s .antisymmetric = .ok e ∧ Lin.isEqual e (Lin.add [] t.base t.coefficient) = true ∧
      (t.base.Plain 𝔬 → e = Lin.add [] t.base t.coefficient) := by
    intro s h1 h2 h3
    exact ⟨s, _, h1, h2, h3, isEqual_add, fun hp => by rw [plain_reread hp]⟩
  have hpar := makeFromStr_str t.coefficient false hc hn hd
  have hone : t.coefficient.str false = [] → t.coefficient = Rational.ofInt 1 := by
    intro h
    rw [h] at hpar
    have : makeFromStr [] = .ok (Rational.ofInt 1) := by decide
    rw [this] at hpar
    exact (Except.ok.inj hpar).symm
  have hbl := parse_blank hp hc hn hd
  by_cases hb : body 𝔬 t.base = []
  · have htt : t.base.tensors = [] := by
      have := scan_tensors hp.ok
      rw [hb] at this
      simpa [findallAux] using this.symm
    have hto : t.base.ops = [] := by
      have := scan_ops hp.ok
      rw [hb] at this
      cases ho : t.base.ops with
      | nil => rfl
      | cons a l => rw [ho] at this; simp [findallAux] at this
    have hre : t.base.reread 𝔬 [] = ⟨false, [], []⟩ := by
      unfold STerm.reread STerm.flag
      rw [htt, hto]; simp
    by_cases he : t.coefficient.str false = []
    · apply fin ['1']
      · unfold CTerm.str
        rw [term_str hp.ok]
        simp [bind, Except.bind, hb, he, pure, Except.pure]
      · simp
      · rw [hre, hone he]; rfl
    · apply fin (t.coefficient.str false)
      · unfold CTerm.str
        rw [term_str hp.ok]
        simp [bind, Except.bind, hb, he, pure, Except.pure]
      · exact he
      · -- the blank makes no difference
        have hch := coef_chars hc
        have nocar : '^' ∉ t.coefficient.str false := fun hx => by
          rcases hch _ hx with h | h | h | h <;> exact absurd h (by decide)
        have hcap : factorCapture (t.coefficient.str false) = t.coefficient.str false := by
          by_cases h0 : t.coefficient.num = 0
          · have hs : t.coefficient.str false = ['0'] := by unfold Rational.str; simp [h0]
            rw [hs]; decide
          · obtain ⟨sgn, ns, ds, sl, hsh⟩ := str_shape hc h0 false
            have := hsh.capture (x := []) (by simp)
            rwa [List.append_nil] at this
        have := parse_line (t := t.base) (t' := t.base) (f := t.coefficient.str false) (c := t.coefficient) (by simp [he]) hp.ok
          (fun x hx => by have := hch x hx; tauto) hp.ok (by rw [hb, List.append_nil, findall_nocaret nocar, htt]; rfl)
          (by rw [hb, List.append_nil, hcap]; exact hpar)
        rw [hb, List.append_nil] at this
        rw [this]
        congr 2
        unfold STerm.reread
        rw [htt]; rfl
  · by_cases he : t.coefficient.str false = []
    · apply fin (body 𝔬 t.base)
      · unfold CTerm.str
        rw [term_str hp.ok]
        simp [bind, Except.bind, hb, he, pure, Except.pure]
      · exact hb
      · rw [parse_bare hp hb, hone he]; rfl
    · apply fin (t.coefficient.str false ++ ' ' :: body 𝔬 t.base)
      · unfold CTerm.str
        rw [term_str hp.ok]
        simp [bind, Except.bind, hb, he, pure, Except.pure]
      · simp
      · exact hbl

theorem rat_eq {a b : Rational} (h0 : toRat b ≠ 0) (h : Rational.eq a b = true) : a = b := by
  have hb : b.num ≠ 0 := by intro h; apply h0; unfold toRat; rw [h]; simp
  obtain ⟨_, _⟩ := a
  obtain ⟨_, _⟩ := b
  simp [Rational.eq] at h hb
  rcases h with h | h
  · exact absurd h.2 hb
  · rw [h.1, h.2]

/-- **C77** (terms): two terms with non-zero coefficients that print the same text are `==`: equal coefficients, the same tensors and the same operators. -/
theorem C77_term_injective (t u : CTerm) (ht : t.base.Parsable 𝔬) (hu : u.base.Parsable 𝔬) (hct : Canon t.coefficient) (hcu : Canon u.coefficient)
    (hnt : t.coefficient.num.natAbs ≤ intMax ∧ t.coefficient.den ≤ intMax) (hnu : u.coefficient.num.natAbs ≤ intMax ∧ u.coefficient.den ≤ intMax)
    (h0t : toRat t.coefficient ≠ 0) (h0u : toRat u.coefficient ≠ 0) (h : t.str 𝔬 = u.str 𝔬) :
    t.coefficient = u.coefficient ∧ eq t.base u.base = true ∧ (t.base.Plain 𝔬 → u.base.Plain 𝔬 → t = u) := by
  obtain ⟨s, e, h1, _, h2, h3, h4⟩ := C77_term_roundtrip t ht hct hnt.1 hnt.2
  obtain ⟨s', e', h1', _, h2', h3', h4'⟩ := C77_term_roundtrip u hu hcu hnu.1 hnu.2
  have hs : s = s' := by rw [h, h1'] at h1; exact (Except.ok.inj h1).symm
  subst hs
  rw [h2] at h2'
  have he := Except.ok.inj h2'
  subst he
  have add1 : ∀ (k : STerm) (c : Rational), toRat c ≠ 0 → Lin.add [] k c = [(k, c)] := by
    intro k c hc
    unfold Lin.add
    have : Rational.eq c (Rational.ofInt 0) = false := by
      have : c.num ≠ 0 := by intro h; apply hc; unfold toRat; rw [h]; simp
      simp [Rational.eq, Rational.ofInt, this]
    simp [this, SMap.find, SMap.insert]
  rw [add1 _ _ h0t] at h3 h4
  rw [add1 _ _ h0u] at h3' h4'
  match e, h3, h3' with
  | [], h3, _ => exact Bool.noConfusion (show false = true from h3)
  | [p], h3, h3' =>
    have a : ((eq p.1 t.base && Rational.eq p.2 t.coefficient) && true) = true := h3
    have b : ((eq p.1 u.base && Rational.eq p.2 u.coefficient) && true) = true := h3'
    simp only [Bool.and_eq_true, and_true] at a b
    have a1 := sterm_eq.mp a.1
    have b1 := sterm_eq.mp b.1
    have a2 : p.2 = t.coefficient := rat_eq h0t a.2
    have b2 : p.2 = u.coefficient := rat_eq h0u b.2
    refine ⟨by rw [← a2, b2], sterm_eq.mpr (by rw [← a1, b1]), fun q1 q2 => ?_⟩
    have x := h4 q1
    have y := h4' q2
    rw [x] at y
    simp at y
    obtain ⟨_, _⟩ := t
    obtain ⟨_, _⟩ := u
    simp only at y
    rw [y.1, y.2]
  | p :: p' :: e, h3, _ =>
    have a : ((eq p.1 t.base && Rational.eq p.2 t.coefficient) && false) = true := h3
    rw [Bool.and_false] at a
    cases a

end

/-- an equation of coupled-cluster theory, for the example -/
def exEquation : Equation :=
  ⟨⟨false, [], [⟨['r'], [⟨1, 0⟩], [⟨0, 0⟩], .antisymmetric, false⟩]⟩,
    ⟨false, [], [⟨['f'], [⟨0, 1⟩], [⟨0, 0⟩], .antisymmetric, false⟩, ⟨['t'], [⟨1, 0⟩], [⟨0, 1⟩], .antisymmetric, false⟩]⟩, ⟨3, 1⟩⟩

/-- the hypotheses of C77 hold of a non-trivial equation, whose text shows that a one-digit factor is separated from the label (unlike in `Expression::str`) -/
example : exEquation.lhs.Parsable (runReg OSI.empty ccHistory) ∧ exEquation.rhs.Parsable (runReg OSI.empty ccHistory) ∧ Canon exEquation.factor ∧
    exEquation.str (runReg OSI.empty ccHistory) = .ok "r^{o0}_{v0} += 3 f^{o0}_{o1} t^{o1}_{v0}".toList ∧
    (CTerm.mk ⟨3, 1⟩ exEquation.rhs).str (runReg OSI.empty ccHistory) = .ok "3 f^{o0}_{o1} t^{o1}_{v0}".toList := by
  have sp : ∀ i : Index, i ∈ [(⟨0, 0⟩ : Index), ⟨0, 1⟩, ⟨1, 0⟩] → i.Spellable (runReg OSI.empty ccHistory) := by
    intro i hi
    simp only [List.mem_cons, List.not_mem_nil, or_false] at hi
    rcases hi with rfl | rfl | rfl
    · exact ⟨⟨'o', by decide, by decide⟩, by decide, by decide⟩
    · exact ⟨⟨'o', by decide, by decide⟩, by decide, by decide⟩
    · exact ⟨⟨'v', by decide, by decide⟩, by decide, by decide⟩
  refine ⟨⟨?_, ?_, by simp [exEquation]⟩, ⟨?_, ?_, by simp [exEquation]⟩, by unfold Canon; decide, by decide, by decide⟩
  · intro x hx
    simp only [exEquation, List.mem_cons, List.not_mem_nil, or_false] at hx
    subst hx
    exact ⟨⟨'r', [], rfl, by decide⟩, by decide⟩
  · intro x hx i hi
    simp only [exEquation, List.mem_cons, List.not_mem_nil, or_false] at hx
    subst hx
    apply sp; revert hi; simp; tauto
  · intro x hx
    simp only [exEquation, List.mem_cons, List.not_mem_nil, or_false] at hx
    rcases hx with rfl | rfl
    · exact ⟨⟨'f', [], rfl, by decide⟩, by decide⟩
    · exact ⟨⟨'t', [], rfl, by decide⟩, by decide⟩
  · intro x hx i hi
    simp only [exEquation, List.mem_cons, List.not_mem_nil, or_false] at hx
    rcases hx with rfl | rfl <;> (apply sp; revert hi; simp; tauto)

end Wicked
