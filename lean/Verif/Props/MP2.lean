import Verif.Spec.MP2
import Verif.Props.Notebook
/-! # C97: the MP2 notebook -/
namespace Wicked
open CppLt CppEq Rational Lin GenOp

namespace Wick

theorem ok_bind_eq {α β : Type} (a : α) (f : α → Res β) : ((Except.ok a : Res α) >>= f) = f a := rfl

/-- what `compile("einsum")` puts before and after the coefficient -/
def compileParts (o : OSI) (q : Equation) : Res (Str × Str) := do
  match q.lhs.tensors with
  | [] => throw .ub
  | t :: _ =>
    let left ← spaceLabels o t
    let r ← tensorsIndices o q.rhs.tensors ⟨[], allLetters⟩
    let res ← uniqueTensorIndices o t r.2
    let args ← q.rhs.tensors.mapM (m := Except Fault) (einsumArg o)
    return (t.label ++ left ++ " += ".toList, " * np.einsum(".toList ++
      join ",".toList (("\"".toList ++ join ",".toList r.1 ++ "->".toList ++ res.1 ++ "\"".toList) :: args) ++
      ",optimize=\"optimal\")".toList)

theorem compile_parts {o : OSI} {q : Equation} {p : Str × Str} (fmt : Rational → Str) (h : compileParts o q = .ok p) : q.compileEinsum o fmt = .ok (p.1 ++ fmt q.factor ++ p.2) := by
  unfold compileParts at h
  unfold Equation.compileEinsum
  split at h
  · cases h
  · rename_i t l heq
    obtain ⟨a, h1, h⟩ := bind_ok' h
    obtain ⟨b, h2, h⟩ := bind_ok' h
    obtain ⟨c, h3, h⟩ := bind_ok' h
    obtain ⟨d, h4, h⟩ := bind_ok' h
    cases h
    rw [heq]
    dsimp only
    rw [h1, ok_bind_eq, h2, ok_bind_eq, h3, ok_bind_eq, h4]
    show (Except.ok _ : Res Str) = _
    simp

abbrev mp2Reg : OSI := runReg OSI.empty mp2Spaces

theorem mp2_ok : allOk OSI.empty mp2Spaces := by refine ⟨?_, ?_, trivial⟩ <;> decide +kernel

theorem mp2_equations : ∃ e m eqs, mp2Expression mp2Reg = .ok e ∧ Expr.toManybody mp2Reg ['R'] e = .ok m ∧ mbeqAt m "oo|vv".toList = .ok eqs ∧
    (eqs.map Equation.factor, eqs.mapM (m := Except Fault) (compileParts mp2Reg)) = ([⟨1, 2⟩, ⟨-1, 2⟩, ⟨1, 4⟩],
      .ok [("Roovv += ".toList, " * np.einsum(\"ik,jkab->ijab\",F0[\"oo\"],T2[\"oovv\"],optimize=\"optimal\")".toList),
        ("Roovv += ".toList, " * np.einsum(\"ca,ijbc->ijab\",F0[\"vv\"],T2[\"oovv\"],optimize=\"optimal\")".toList),
        ("Roovv += ".toList, " * np.einsum(\"ijab->ijab\",V[\"oovv\"],optimize=\"optimal\")".toList)]) := by
  obtain ⟨x, hx, h⟩ := ok_of_check (x := mp2Expression mp2Reg >>= fun e => Expr.toManybody mp2Reg ['R'] e >>= fun m => mbeqAt m "oo|vv".toList >>= fun eqs =>
      eqs.mapM (m := Except Fault) (compileParts mp2Reg) >>= fun l => pure (e, m, eqs, l))
    (fun x => decide (x.2.2.1.map Equation.factor = [⟨1, 2⟩, ⟨-1, 2⟩, ⟨1, 4⟩] ∧ x.2.2.2 = [("Roovv += ".toList, " * np.einsum(\"ik,jkab->ijab\",F0[\"oo\"],T2[\"oovv\"],optimize=\"optimal\")".toList),
        ("Roovv += ".toList, " * np.einsum(\"ca,ijbc->ijab\",F0[\"vv\"],T2[\"oovv\"],optimize=\"optimal\")".toList),
        ("Roovv += ".toList, " * np.einsum(\"ijab->ijab\",V[\"oovv\"],optimize=\"optimal\")".toList)])) (by decide +kernel)
  obtain ⟨e, he, hx⟩ := bind_ok' hx
  obtain ⟨m, hm, hx⟩ := bind_ok' hx
  obtain ⟨eqs, hq, hx⟩ := bind_ok' hx
  obtain ⟨l, hl, hx⟩ := bind_ok' hx
  cases hx
  have h := of_decide_eq_true h
  exact ⟨e, m, eqs, he, hm, hq, by rw [hl]; exact Prod.ext h.1 (congrArg Except.ok h.2)⟩

/-- **C97**, the cells of the notebook up to the generation of the function run, and produce the function that the notebook shows. -/
theorem C97_function (fmt : Rational → Str) : mp2Function (runReg OSI.empty mp2Spaces) fmt = .ok (mp2Text (fmt ⟨1, 2⟩) (fmt ⟨-1, 2⟩) (fmt ⟨1, 4⟩)) := by
  obtain ⟨e, m, eqs, he, hm, hq, h⟩ := mp2_equations
  obtain ⟨h1, h2⟩ := Prod.ext_iff.1 h
  dsimp only at h1 h2
  have h3 := (mapM_ok_iff _ _ _).1 h2
  match eqs, h1, h3 with
  | [a, b, c], h1, h3 =>
    simp only [List.map_cons, List.map_nil, List.cons.injEq, and_true] at h1
    cases h3 with
    | cons ha h3 =>
      cases h3 with
      | cons hb h3 =>
        cases h3 with
        | cons hc h3 =>
          have hl : [a, b, c].mapM (m := Except Fault) (fun q => q.compileEinsum mp2Reg fmt) = .ok _ :=
            (mapM_ok_iff _ _ _).2 (.cons (compile_parts fmt ha) (.cons (compile_parts fmt hb) (.cons (compile_parts fmt hc) .nil)))
          unfold mp2Function
          rw [he, ok_bind_eq, hm, ok_bind_eq, hq, ok_bind_eq, hl, h1.1, h1.2.1, h1.2.2]
          show (Except.ok _ : Res Str) = .ok _
          congr 1

/-! ## What the function computes -/

/-- what is read after the coefficient -/
def readTail (s : Str) : Option (List Str × Str × List (Str × Str)) := do
  let r ← breakOn "->".toList s
  let u ← breakOn "\"".toList r.2
  let args ← readArgs (u.2.length + 1) u.2
  return (splitComma r.1, u.1, args)

theorem read_line {f tail : Str} (hf : ' ' ∉ f) {x : List Str × Str × List (Str × Str)} (h : readTail tail = some x) :
    readEinsum ("Roovv += ".toList ++ f ++ (" * np.einsum(\"".toList ++ tail)) = some ⟨"Roovv".toList, f, x.1, x.2.1, x.2.2⟩ := by
  unfold readTail at h
  unfold readEinsum
  have e1 : "Roovv += ".toList ++ f ++ (" * np.einsum(\"".toList ++ tail) = "Roovv".toList ++ (' ' :: "+= ".toList) ++ (f ++ (" * np.einsum(\"".toList ++ tail)) := by
    rw [show "Roovv += ".toList = "Roovv".toList ++ (' ' :: "+= ".toList) from by decide]
    simp only [List.append_assoc]
  have e2 : f ++ (" * np.einsum(\"".toList ++ tail) = f ++ (' ' :: "* np.einsum(\"".toList) ++ tail := by
    rw [show " * np.einsum(\"".toList = ' ' :: "* np.einsum(\"".toList from by decide]
    simp only [List.append_assoc]
  rw [e1, show " += ".toList = ' ' :: "+= ".toList from by decide, breakOn_app (by decide)]
  dsimp only [Option.bind_eq_bind, Option.bind]
  rw [e2, show " * np.einsum(\"".toList = ' ' :: "* np.einsum(\"".toList from by decide, breakOn_app hf]
  dsimp only
  cases h1 : breakOn "->".toList tail with
  | none => rw [h1] at h; cases h
  | some r =>
    rw [h1] at h
    dsimp only [Option.bind_eq_bind, Option.bind] at h ⊢
    cases h2 : breakOn "\"".toList r.2 with
    | none => rw [h2] at h; cases h
    | some u =>
      rw [h2] at h
      dsimp only [Option.bind_eq_bind, Option.bind] at h ⊢
      cases h3 : readArgs (u.2.length + 1) u.2 with
      | none => rw [h3] at h; cases h
      | some args =>
        rw [h3] at h
        cases h
        rfl

/-- the three calls of `np.einsum` -/
def mp2Line1 (f : Str) : EinsumLine := ⟨"Roovv".toList, f, ["ik".toList, "jkab".toList], "ijab".toList, [("F0".toList, "oo".toList), ("T2".toList, "oovv".toList)]⟩
def mp2Line2 (f : Str) : EinsumLine := ⟨"Roovv".toList, f, ["ca".toList, "ijbc".toList], "ijab".toList, [("F0".toList, "vv".toList), ("T2".toList, "oovv".toList)]⟩
def mp2Line3 (f : Str) : EinsumLine := ⟨"Roovv".toList, f, ["ijab".toList], "ijab".toList, [("V".toList, "oovv".toList)]⟩

theorem read_line1 {f : Str} (hf : ' ' ∉ f) : readEinsum ("Roovv += ".toList ++ f ++ " * np.einsum(\"ik,jkab->ijab\",F0[\"oo\"],T2[\"oovv\"],optimize=\"optimal\")".toList) = some (mp2Line1 f) := by
  rw [show " * np.einsum(\"ik,jkab->ijab\",F0[\"oo\"],T2[\"oovv\"],optimize=\"optimal\")".toList = " * np.einsum(\"".toList ++ "ik,jkab->ijab\",F0[\"oo\"],T2[\"oovv\"],optimize=\"optimal\")".toList from by decide]
  exact read_line hf (x := (["ik".toList, "jkab".toList], "ijab".toList, [("F0".toList, "oo".toList), ("T2".toList, "oovv".toList)])) (by decide +kernel)

theorem read_line2 {f : Str} (hf : ' ' ∉ f) : readEinsum ("Roovv += ".toList ++ f ++ " * np.einsum(\"ca,ijbc->ijab\",F0[\"vv\"],T2[\"oovv\"],optimize=\"optimal\")".toList) = some (mp2Line2 f) := by
  rw [show " * np.einsum(\"ca,ijbc->ijab\",F0[\"vv\"],T2[\"oovv\"],optimize=\"optimal\")".toList = " * np.einsum(\"".toList ++ "ca,ijbc->ijab\",F0[\"vv\"],T2[\"oovv\"],optimize=\"optimal\")".toList from by decide]
  exact read_line hf (x := (["ca".toList, "ijbc".toList], "ijab".toList, [("F0".toList, "vv".toList), ("T2".toList, "oovv".toList)])) (by decide +kernel)

theorem read_line3 {f : Str} (hf : ' ' ∉ f) : readEinsum ("Roovv += ".toList ++ f ++ " * np.einsum(\"ijab->ijab\",V[\"oovv\"],optimize=\"optimal\")".toList) = some (mp2Line3 f) := by
  rw [show " * np.einsum(\"ijab->ijab\",V[\"oovv\"],optimize=\"optimal\")".toList = " * np.einsum(\"".toList ++ "ijab->ijab\",V[\"oovv\"],optimize=\"optimal\")".toList from by decide]
  exact read_line hf (x := (["ijab".toList], "ijab".toList, [("V".toList, "oovv".toList)])) (by decide +kernel)

theorem accepted1 (f : Str) : (mp2Line1 f).Accepted := by
  refine ⟨?_, ?_, ?_, ?_, ?_, ?_, ?_⟩
  · exact (by decide : [("F0".toList, "oo".toList), ("T2".toList, "oovv".toList)] ≠ [])
  · rfl
  · exact (by decide : ∀ p ∈ (mp2Line1 []).subs.zip (mp2Line1 []).args, p.1.length = p.2.2.length)
  · exact (by decide : ∀ p ∈ (mp2Line1 []).axes, isAlpha p.1 = true)
  · exact (by decide : ∀ p ∈ (mp2Line1 []).axes, ∀ q ∈ (mp2Line1 []).axes, p.1 = q.1 → p.2 = q.2)
  · exact (by decide : (mp2Line1 []).out.Nodup)
  · exact (by decide : ∀ c ∈ (mp2Line1 []).out, c ∈ (mp2Line1 []).axes.map Prod.fst)

theorem accepted2 (f : Str) : (mp2Line2 f).Accepted := by
  refine ⟨?_, ?_, ?_, ?_, ?_, ?_, ?_⟩
  · exact (by decide : [("F0".toList, "vv".toList), ("T2".toList, "oovv".toList)] ≠ [])
  · rfl
  · exact (by decide : ∀ p ∈ (mp2Line2 []).subs.zip (mp2Line2 []).args, p.1.length = p.2.2.length)
  · exact (by decide : ∀ p ∈ (mp2Line2 []).axes, isAlpha p.1 = true)
  · exact (by decide : ∀ p ∈ (mp2Line2 []).axes, ∀ q ∈ (mp2Line2 []).axes, p.1 = q.1 → p.2 = q.2)
  · exact (by decide : (mp2Line2 []).out.Nodup)
  · exact (by decide : ∀ c ∈ (mp2Line2 []).out, c ∈ (mp2Line2 []).axes.map Prod.fst)

theorem accepted3 (f : Str) : (mp2Line3 f).Accepted := by
  refine ⟨?_, ?_, ?_, ?_, ?_, ?_, ?_⟩
  · exact (by decide : [("V".toList, "oovv".toList)] ≠ [])
  · rfl
  · exact (by decide : ∀ p ∈ (mp2Line3 []).subs.zip (mp2Line3 []).args, p.1.length = p.2.2.length)
  · exact (by decide : ∀ p ∈ (mp2Line3 []).axes, isAlpha p.1 = true)
  · exact (by decide : ∀ p ∈ (mp2Line3 []).axes, ∀ q ∈ (mp2Line3 []).axes, p.1 = q.1 → p.2 = q.2)
  · exact (by decide : (mp2Line3 []).out.Nodup)
  · exact (by decide : ∀ c ∈ (mp2Line3 []).out, c ∈ (mp2Line3 []).axes.map Prod.fst)

section
variable {Ω R : Type} [Inhabited Ω] [DecidableEq Ω] [CommRing R]

theorem line_axes {L : EinsumLine} {l : List Char} (hl : l.Nodup) (h : (L.axes.map Prod.fst).toFinset = l.toFinset) (dom : Char → Finset Ω) (arr : Str → Str → List Ω → R) (x : List Ω) (F : List Ω → R)
    (hF : ∀ τ : Char → Ω, (if L.out.map τ = x then ((L.subs.zip L.args).map (fun p => arr p.2.1 p.2.2 (p.1.map τ))).prod else 0) = F (l.map τ)) :
    L.element arr dom x = sumTuples (l.map (fun c => dom (L.spaceOf c))) F := by
  unfold EinsumLine.element
  rw [h, ← sumOver_tuples l hl]
  congr 1
  funext τ
  exact hF τ

theorem element1 (f : Str) (arr : Str → Str → List Ω → R) (dom : Char → Finset Ω) {i j a b : Ω} (hi : i ∈ dom 'o') (hj : j ∈ dom 'o') (ha : a ∈ dom 'v') (hb : b ∈ dom 'v') :
    (mp2Line1 f).element arr dom [i, j, a, b] = ∑ k ∈ dom 'o', arr "F0".toList "oo".toList [i, k] * arr "T2".toList "oovv".toList [j, k, a, b] := by
  rw [line_axes (L := mp2Line1 f) (l := ['i', 'j', 'a', 'b', 'k']) (by decide) (show ((mp2Line1 []).axes.map Prod.fst).toFinset = _ from by decide) dom arr _
    (fun l => match l with | [p, q, r, s, k] => if [p, q, r, s] = [i, j, a, b] then arr "F0".toList "oo".toList [p, k] * arr "T2".toList "oovv".toList [q, k, r, s] else 0 | _ => 0)
    (by intro τ; simp [mp2Line1])]
  have hs : ['i', 'j', 'a', 'b', 'k'].map (fun c => dom ((mp2Line1 f).spaceOf c)) = [dom 'o', dom 'o', dom 'v', dom 'v', dom 'o'] := by
    rw [show (mp2Line1 f).spaceOf = (mp2Line1 []).spaceOf from rfl]
    simp only [List.map_cons, List.map_nil]
    rw [show (mp2Line1 []).spaceOf 'i' = 'o' from by decide, show (mp2Line1 []).spaceOf 'j' = 'o' from by decide, show (mp2Line1 []).spaceOf 'a' = 'v' from by decide,
      show (mp2Line1 []).spaceOf 'b' = 'v' from by decide, show (mp2Line1 []).spaceOf 'k' = 'o' from by decide]
  rw [hs]
  simp only [sumTuples, List.cons.injEq, and_true]
  rw [Finset.sum_eq_single_of_mem i hi (fun p _ hp => by simp [hp]), Finset.sum_eq_single_of_mem j hj (fun p _ hp => by simp [hp]), Finset.sum_eq_single_of_mem a ha (fun p _ hp => by simp [hp]),
    Finset.sum_eq_single_of_mem b hb (fun p _ hp => by simp [hp])]
  simp

theorem element2 (f : Str) (arr : Str → Str → List Ω → R) (dom : Char → Finset Ω) {i j a b : Ω} (hi : i ∈ dom 'o') (hj : j ∈ dom 'o') (ha : a ∈ dom 'v') (hb : b ∈ dom 'v') :
    (mp2Line2 f).element arr dom [i, j, a, b] = ∑ c ∈ dom 'v', arr "F0".toList "vv".toList [c, a] * arr "T2".toList "oovv".toList [i, j, b, c] := by
  rw [line_axes (L := mp2Line2 f) (l := ['i', 'j', 'a', 'b', 'c']) (by decide) (show ((mp2Line2 []).axes.map Prod.fst).toFinset = _ from by decide) dom arr _
    (fun l => match l with | [p, q, r, s, c] => if [p, q, r, s] = [i, j, a, b] then arr "F0".toList "vv".toList [c, r] * arr "T2".toList "oovv".toList [p, q, s, c] else 0 | _ => 0)
    (by intro τ; simp [mp2Line2])]
  have hs : ['i', 'j', 'a', 'b', 'c'].map (fun c => dom ((mp2Line2 f).spaceOf c)) = [dom 'o', dom 'o', dom 'v', dom 'v', dom 'v'] := by
    rw [show (mp2Line2 f).spaceOf = (mp2Line2 []).spaceOf from rfl]
    simp only [List.map_cons, List.map_nil]
    rw [show (mp2Line2 []).spaceOf 'i' = 'o' from by decide, show (mp2Line2 []).spaceOf 'j' = 'o' from by decide, show (mp2Line2 []).spaceOf 'a' = 'v' from by decide,
      show (mp2Line2 []).spaceOf 'b' = 'v' from by decide, show (mp2Line2 []).spaceOf 'c' = 'v' from by decide]
  rw [hs]
  simp only [sumTuples, List.cons.injEq, and_true]
  rw [Finset.sum_eq_single_of_mem i hi (fun p _ hp => by simp [hp]), Finset.sum_eq_single_of_mem j hj (fun p _ hp => by simp [hp]), Finset.sum_eq_single_of_mem a ha (fun p _ hp => by simp [hp]),
    Finset.sum_eq_single_of_mem b hb (fun p _ hp => by simp [hp])]
  simp

theorem element3 (f : Str) (arr : Str → Str → List Ω → R) (dom : Char → Finset Ω) {i j a b : Ω} (hi : i ∈ dom 'o') (hj : j ∈ dom 'o') (ha : a ∈ dom 'v') (hb : b ∈ dom 'v') :
    (mp2Line3 f).element arr dom [i, j, a, b] = arr "V".toList "oovv".toList [i, j, a, b] := by
  rw [line_axes (L := mp2Line3 f) (l := ['i', 'j', 'a', 'b']) (by decide) (show ((mp2Line3 []).axes.map Prod.fst).toFinset = _ from by decide) dom arr _
    (fun l => match l with | [p, q, r, s] => if [p, q, r, s] = [i, j, a, b] then arr "V".toList "oovv".toList [p, q, r, s] else 0 | _ => 0)
    (by intro τ; simp [mp2Line3])]
  have hs : ['i', 'j', 'a', 'b'].map (fun c => dom ((mp2Line3 f).spaceOf c)) = [dom 'o', dom 'o', dom 'v', dom 'v'] := by
    rw [show (mp2Line3 f).spaceOf = (mp2Line3 []).spaceOf from rfl]
    simp only [List.map_cons, List.map_nil]
    rw [show (mp2Line3 []).spaceOf 'i' = 'o' from by decide, show (mp2Line3 []).spaceOf 'j' = 'o' from by decide, show (mp2Line3 []).spaceOf 'a' = 'v' from by decide,
      show (mp2Line3 []).spaceOf 'b' = 'v' from by decide]
  rw [hs]
  simp only [sumTuples, List.cons.injEq, and_true]
  rw [Finset.sum_eq_single_of_mem i hi (fun p _ hp => by simp [hp]), Finset.sum_eq_single_of_mem j hj (fun p _ hp => by simp [hp]), Finset.sum_eq_single_of_mem a ha (fun p _ hp => by simp [hp]),
    Finset.sum_eq_single_of_mem b hb (fun p _ hp => by simp [hp])]
  simp

theorem prints_half {fmt : Rational → Str} (hfmt : PrintsNine fmt) {c : Rational} (hc : Canon c) (hd : c.den ∣ 10 ^ 9) : decimalVal (fmt c) = some (toRat c) ∧ ' ' ∉ fmt c ∧ '\n' ∉ fmt c := by
  obtain ⟨⟨a, b, h1, _, _, h2, h3⟩, x, hx, _⟩ := hfmt c hc
  have h := litVal_exact hfmt hc hd
  unfold litVal at h
  rw [hx] at h ⊢
  have hn : ∀ d : Char, isDigit d = false → d ≠ '.' → d ≠ '-' → d ∉ fmt c := by
    intro d hd1 hd2 hd3 hm
    rcases h1 with h1 | h1 <;> rw [h1] at hm <;> simp only [List.mem_cons, List.mem_append, hd2, hd3, false_or] at hm
    · rcases hm with hm | hm
      · rw [h2 _ hm] at hd1; cases hd1
      · rw [h3 _ hm] at hd1; cases hd1
    · rcases hm with hm | hm
      · rw [h2 _ hm] at hd1; cases hd1
      · rw [h3 _ hm] at hd1; cases hd1
  exact ⟨by rw [← h]; rfl, hn ' ' (by decide) (by decide) (by decide), hn '\n' (by decide) (by decide) (by decide)⟩

theorem read_mp2 {a b c : Str} (ha : '\n' ∉ a) (hb : '\n' ∉ b) (hc : '\n' ∉ c) :
    readFunction (mp2Text a b c) = some ⟨"evaluate_residual".toList, ["F0".toList, "T2".toList, "V".toList], "Roovv".toList, some ["nocc".toList, "nocc".toList, "nvir".toList, "nvir".toList],
      ["Roovv += ".toList ++ a ++ " * np.einsum(\"ik,jkab->ijab\",F0[\"oo\"],T2[\"oovv\"],optimize=\"optimal\")".toList,
        "Roovv += ".toList ++ b ++ " * np.einsum(\"ca,ijbc->ijab\",F0[\"vv\"],T2[\"oovv\"],optimize=\"optimal\")".toList,
        "Roovv += ".toList ++ c ++ " * np.einsum(\"ijab->ijab\",V[\"oovv\"],optimize=\"optimal\")".toList], "Roovv".toList⟩ := by
  have e : mp2Text a b c = join ['\n'] ("def evaluate_residual(F0,T2,V):".toList :: (["# contributions to the residual".toList, "Roovv = np.zeros((nocc,nocc,nvir,nvir))".toList,
      "Roovv += ".toList ++ a ++ " * np.einsum(\"ik,jkab->ijab\",F0[\"oo\"],T2[\"oovv\"],optimize=\"optimal\")".toList,
        "Roovv += ".toList ++ b ++ " * np.einsum(\"ca,ijbc->ijab\",F0[\"vv\"],T2[\"oovv\"],optimize=\"optimal\")".toList,
        "Roovv += ".toList ++ c ++ " * np.einsum(\"ijab->ijab\",V[\"oovv\"],optimize=\"optimal\")".toList, "return Roovv".toList].map (fun s => "    ".toList ++ s))) := by
    unfold mp2Text
    rw [show "    Roovv += ".toList = "    ".toList ++ "Roovv += ".toList from by decide]
    simp only [List.map_cons, List.map_nil, List.append_assoc]
    rfl
  rw [e]
  unfold readFunction
  rw [linesOf_join (by simp)]
  · dsimp only
    rw [show stripPrefix "def ".toList "def evaluate_residual(F0,T2,V):".toList = some "evaluate_residual(F0,T2,V):".toList from by decide]
    dsimp only [bind, Option.bind]
    rw [show breakOn "(".toList "evaluate_residual(F0,T2,V):".toList = some ("evaluate_residual".toList, "F0,T2,V):".toList) from by decide]
    dsimp only
    rw [show breakOn "):".toList "F0,T2,V):".toList = some ("F0,T2,V".toList, []) from by decide]
    dsimp only
    rw [mapM_stripPrefix]
    dsimp only
    rw [List.filter_cons_of_neg (by decide), List.filter_cons_of_pos (by decide), List.filter_eq_self.2 (by
      intro s hs
      simp only [List.mem_cons, List.not_mem_nil, or_false] at hs
      rcases hs with rfl | rfl | rfl | rfl
      · simp
      · simp
      · simp
      · decide)]
    dsimp only
    rw [show readInit "Roovv = np.zeros((nocc,nocc,nvir,nvir))".toList = some ("Roovv".toList, some ["nocc".toList, "nocc".toList, "nvir".toList, "nvir".toList]) from by decide +kernel]
    dsimp only [List.getLast?]
    rfl
  · intro s hs
    simp only [List.map_cons, List.map_nil, List.mem_cons, List.not_mem_nil, or_false] at hs
    rcases hs with rfl | rfl | rfl | rfl | rfl | rfl | rfl
    · decide
    · decide
    · decide
    · simp only [List.mem_append, not_or]; exact ⟨by decide, ⟨by decide, ha⟩, by decide⟩
    · simp only [List.mem_append, not_or]; exact ⟨by decide, ⟨by decide, hb⟩, by decide⟩
    · simp only [List.mem_append, not_or]; exact ⟨by decide, ⟨by decide, hc⟩, by decide⟩
    · decide

/-- **C97**, the function in formulas: for all arrays it returns `R[ijab] = 1/2 Σ_k F0[ik] T2[jkab] - 1/2 Σ_c F0[ca] T2[ijbc] + 1/4 V[ijab]`. -/
theorem C97_residual [Algebra ℚ R] {fmt : Rational → Str} (hfmt : PrintsNine fmt) (arr : Str → Str → List Ω → R) (dom : Char → Finset Ω) :
    ∃ text r, mp2Function (runReg OSI.empty mp2Spaces) fmt = .ok text ∧
      ReturnsArray arr dom text "evaluate_residual".toList (some ["nocc".toList, "nocc".toList, "nvir".toList, "nvir".toList]) r ∧
      ∀ i ∈ dom 'o', ∀ j ∈ dom 'o', ∀ a ∈ dom 'v', ∀ b ∈ dom 'v', r [i, j, a, b] =
        algebraMap ℚ R (1 / 2) * ∑ k ∈ dom 'o', arr "F0".toList "oo".toList [i, k] * arr "T2".toList "oovv".toList [j, k, a, b] -
        algebraMap ℚ R (1 / 2) * ∑ c ∈ dom 'v', arr "F0".toList "vv".toList [c, a] * arr "T2".toList "oovv".toList [i, j, b, c] +
        algebraMap ℚ R (1 / 4) * arr "V".toList "oovv".toList [i, j, a, b] := by
  obtain ⟨d1, s1, n1⟩ := prints_half hfmt (c := ⟨1, 2⟩) (by decide) (by decide)
  obtain ⟨d2, s2, n2⟩ := prints_half hfmt (c := ⟨-1, 2⟩) (by decide) (by decide)
  obtain ⟨d3, s3, n3⟩ := prints_half hfmt (c := ⟨1, 4⟩) (by decide) (by decide)
  refine ⟨_, _, C97_function fmt, ⟨_, read_mp2 n1 n2 n3, rfl, rfl, rfl, ?_, _, ⟨_, _, read_line1 s1, accepted1 _, d1, _, _, read_line2 s2, accepted2 _, d2, _, _, read_line3 s3, accepted3 _, d3, rfl⟩, rfl⟩, ?_⟩
  · intro l hl
    simp only [List.mem_cons, List.not_mem_nil, or_false] at hl
    rcases hl with rfl | rfl | rfl
    · exact ⟨_, read_line1 s1, rfl, (by decide : ∀ a ∈ (mp2Line1 []).args, a.1 ∈ ["F0".toList, "T2".toList, "V".toList])⟩
    · exact ⟨_, read_line2 s2, rfl, (by decide : ∀ a ∈ (mp2Line2 []).args, a.1 ∈ ["F0".toList, "T2".toList, "V".toList])⟩
    · exact ⟨_, read_line3 s3, rfl, (by decide : ∀ a ∈ (mp2Line3 []).args, a.1 ∈ ["F0".toList, "T2".toList, "V".toList])⟩
  · intro i hi j hj a ha b hb
    have t1 : ∀ f, (mp2Line1 f).target = "Roovv".toList := fun _ => rfl
    have t2 : ∀ f, (mp2Line2 f).target = "Roovv".toList := fun _ => rfl
    have t3 : ∀ f, (mp2Line3 f).target = "Roovv".toList := fun _ => rfl
    simp only [t1, t2, t3, if_true, element1 _ arr dom hi hj ha hb, element2 _ arr dom hi hj ha hb, element3 _ arr dom hi hj ha hb]
    have c1 : toRat ⟨1, 2⟩ = 1 / 2 := by norm_num [toRat]
    have c2 : toRat ⟨-1, 2⟩ = -(1 / 2) := by norm_num [toRat]
    have c3 : toRat ⟨1, 4⟩ = 1 / 4 := by norm_num [toRat]
    rw [c1, c2, c3, map_neg]
    ring
end

/-! ## The loop -/

section
variable {S : Type} [Field S] [CharZero S]

theorem elemOf_eq {D : List (Str × NdArray S)} {key : Str} {X : NdArray S} (h : HasArray D key X) (x : List Nat) : elemOf D key x = X.elem x := by
  unfold HasArray at h
  simp only [elemOf, getArray, h, pure, Except.pure]

theorem hasArray_one (X : NdArray S) : HasArray [("oovv".toList, X)] "oovv".toList X := by
  simp [HasArray]

theorem antisym_elem (nocc nvir : Nat) (X : NdArray S) (i j a b : Nat) :
    (antisymmetrizeMp2 nocc nvir X).elem [i, j, a, b] = X.elem [i, j, a, b] - X.elem [j, i, a, b] - X.elem [i, j, b, a] + X.elem [j, i, b, a] := by
  simp [antisymmetrizeMp2, runTranspose, antisymMp2Lines, einsumTranspose]
  ring

theorem sum_positions4 (p q r s : Nat) (f : List Nat → S) :
    ((positions [p, q, r, s]).map f).sum = ∑ i ∈ Finset.range p, ∑ j ∈ Finset.range q, ∑ a ∈ Finset.range r, ∑ b ∈ Finset.range s, f [i, j, a, b] := by
  have h : ∀ (n : Nat) (l : List Nat) (f : List Nat → S), ((positions (n :: l)).map f).sum = ∑ i ∈ Finset.range n, ((positions l).map (fun x => f (i :: x))).sum := by
    intro n l f
    rw [positions, List.map_flatMap, List.flatMap_def, List.sum_flatten, Finset.sum_range, List.map_map]
    simp only [Function.comp_def, List.map_map]
    rw [← List.sum_ofFn, List.ofFn_eq_map, ← List.map_coe_finRange_eq_range, List.map_map]
    rfl
  simp only [h]
  simp [positions]

omit [Field S] [CharZero S] in
theorem getArray_of {D : List (Str × NdArray S)} {key X} (h : HasArray D key X) : getArray D key = .ok X := by
  unfold HasArray at h
  simp only [getArray, h, pure, Except.pure]

/-- one round of the loop: from any antisymmetric amplitudes to the first-order amplitudes -/
theorem mp2_round {fmt : Rational → Str} (hfmt : PrintsNine fmt) {nocc nvir : Nat} {H invD : List (Str × NdArray S)} {oo vv V X : NdArray S}
    (hoo : HasArray H "oo".toList oo) (hvv : HasArray H "vv".toList vv) (hV : HasArray H "oovv".toList V)
    (dO : DiagonalArray nocc oo) (dV : DiagonalArray nvir vv) (aV : AntisymmetricArray nocc nvir V)
    (hX : HasArray invD "oovv".toList X) (iX : IsInverseDenominator 2 nocc nvir oo vv X) (hne : NonzeroEnergies 2 nocc nvir oo vv)
    {text : Str} (htext : mp2Function (runReg OSI.empty mp2Spaces) fmt = .ok text)
    {residual : List (Str × NdArray S) → NdArray S} (hres : ReturnsResidual H nocc nvir text residual)
    (t : NdArray S) (ht : t.shape = [nocc, nocc, nvir, nvir]) (at' : AntisymmetricArray nocc nvir t) :
    ∃ t', updateMp2 [("oovv".toList, t)] (antisymmetrizeMp2 nocc nvir (residual [("oovv".toList, t)])) invD = .ok [("oovv".toList, t')] ∧ t'.shape = [nocc, nocc, nvir, nvir] ∧
      ∀ i < nocc, ∀ j < nocc, ∀ a < nvir, ∀ b < nvir, t'.elem [i, j, a, b] = mp2Amplitude oo vv V i j a b := by
  refine ⟨⟨t.shape, fun idx => t.elem idx + (antisymmetrizeMp2 nocc nvir (residual [("oovv".toList, t)])).elem idx * X.elem idx⟩, ?_, ht, ?_⟩
  · have s2 : X.shape = [nocc, nocc, nvir, nvir] := iX.1
    simp only [updateMp2, updateBlock, getArray_of (hasArray_one _), getArray_of hX, bind, Except.bind]
    rw [if_pos ⟨by rw [s2]; rfl, by rw [ht]; rfl⟩]
    simp [setArray, pure, Except.pure]
  · intro i hi j hj a ha b hb
    obtain ⟨text', r, h1, h2, h3⟩ := C97_residual (R := S) hfmt (mp2Arrays H [("oovv".toList, t)]) (mp2Dom nocc nvir)
    rw [htext] at h1
    cases h1
    have hr : (residual [("oovv".toList, t)]).elem = r := returnsArray_unique (hres _ ⟨t, hasArray_one t, ht⟩) h2
    have eF : ∀ x, mp2Arrays H [("oovv".toList, t)] "F0".toList "oo".toList x = oo.elem x := fun x => by simp [mp2Arrays]; exact elemOf_eq hoo x
    have eG : ∀ x, mp2Arrays H [("oovv".toList, t)] "F0".toList "vv".toList x = vv.elem x := fun x => by simp [mp2Arrays]; exact elemOf_eq hvv x
    have eT : ∀ x, mp2Arrays H [("oovv".toList, t)] "T2".toList "oovv".toList x = t.elem x := fun x => by
      rw [← elemOf_eq (hasArray_one t)]; rfl
    have eV : ∀ x, mp2Arrays H [("oovv".toList, t)] "V".toList "oovv".toList x = V.elem x := fun x => by
      rw [← elemOf_eq hV]; rfl
    have hval : ∀ i < nocc, ∀ j < nocc, ∀ a < nvir, ∀ b < nvir, r [i, j, a, b] =
        1 / 2 * (oo.elem [i, i] * t.elem [j, i, a, b]) - 1 / 2 * (vv.elem [a, a] * t.elem [i, j, b, a]) + 1 / 4 * V.elem [i, j, a, b] := by
      intro i hi j hj a ha b hb
      have d1 : mp2Dom nocc nvir 'o' = Finset.range nocc := rfl
      have d2 : mp2Dom nocc nvir 'v' = Finset.range nvir := rfl
      rw [h3 i (by simpa [d1] using hi) j (by simpa [d1] using hj) a (by simpa [d2] using ha) b (by simpa [d2] using hb), d1, d2]
      simp only [eF, eG, eT, eV]
      rw [Finset.sum_eq_single_of_mem i (by simpa using hi) (fun k hk hki => by rw [dO i hi k (by simpa using hk) (Ne.symm hki), zero_mul]),
        Finset.sum_eq_single_of_mem a (by simpa using ha) (fun k hk hka => by rw [dV k (by simpa using hk) a ha hka, zero_mul])]
      simp
    have hinv : X.elem [i, j, a, b] = (oo.elem [i, i] + oo.elem [j, j] - vv.elem [a, a] - vv.elem [b, b])⁻¹ := by
      have h := iX.2 [i, j] [a, b] (.cons hi (.cons hj .nil)) (.cons ha (.cons hb .nil))
      simp only [List.cons_append, List.nil_append, List.map_cons, List.map_nil, List.sum_cons, List.sum_nil, add_zero] at h
      rw [h, sub_sub]
    have hn : oo.elem [i, i] + oo.elem [j, j] - vv.elem [a, a] - vv.elem [b, b] ≠ 0 := by
      have h := hne [i, j] [a, b] (.cons hi (.cons hj .nil)) (.cons ha (.cons hb .nil))
      simp only [List.map_cons, List.map_nil, List.sum_cons, List.sum_nil, add_zero] at h
      rwa [sub_sub]
    have t1 := (at' i hi j hj a ha b hb).1
    have t2 := (at' i hi j hj a ha b hb).2
    have t3 := (at' j hj i hi a ha b hb).2
    have v1 := (aV i hi j hj a ha b hb).1
    have v2 := (aV i hi j hj a ha b hb).2
    have v3 := (aV j hj i hi a ha b hb).2
    show t.elem [i, j, a, b] + (antisymmetrizeMp2 nocc nvir (residual [("oovv".toList, t)])).elem [i, j, a, b] * X.elem [i, j, a, b] = _
    rw [antisym_elem, hr, hval i hi j hj a ha b hb, hval j hj i hi a ha b hb, hval i hi j hj b hb a ha, hval j hj i hi b hb a ha, hinv, mp2Amplitude, t3, t2, t1, v3, v2, v1, div_eq_mul_inv]
    generalize oo.elem [i, i] = e1 at *
    generalize oo.elem [j, j] = e2 at *
    generalize vv.elem [a, a] = e3 at *
    generalize vv.elem [b, b] = e4 at *
    generalize t.elem [i, j, a, b] = u
    generalize V.elem [i, j, a, b] = w
    field_simp
    ring

theorem mp2_energy {nocc nvir : Nat} {H : List (Str × NdArray S)} {oo vv V t : NdArray S} (hV : HasArray H "oovv".toList V) (sV : V.shape = [nocc, nocc, nvir, nvir])
    (ht : t.shape = [nocc, nocc, nvir, nvir]) (h : ∀ i < nocc, ∀ j < nocc, ∀ a < nvir, ∀ b < nvir, t.elem [i, j, a, b] = mp2Amplitude oo vv V i j a b) :
    mp2Energy [("oovv".toList, t)] H = .ok (mp2CorrelationEnergy nocc nvir oo vv V) := by
  unfold mp2Energy
  simp only [getArray_of (hasArray_one t), getArray_of hV, bind, Except.bind]
  rw [if_pos ⟨by rw [sV, ht], by rw [sV]; rfl⟩, sV, sum_positions4]
  unfold mp2CorrelationEnergy
  simp only [pure, Except.pure]
  congr 2
  refine Finset.sum_congr rfl (fun i hi => Finset.sum_congr rfl (fun j hj => Finset.sum_congr rfl (fun a ha => Finset.sum_congr rfl (fun b hb => ?_))))
  rw [h i (by simpa using hi) j (by simpa using hj) a (by simpa using ha) b (by simpa using hb), mp2Amplitude]
  ring

omit [CharZero S] in
theorem amplitude_antisymmetric {nocc nvir : Nat} {oo vv V t : NdArray S} (aV : AntisymmetricArray nocc nvir V)
    (h : ∀ i < nocc, ∀ j < nocc, ∀ a < nvir, ∀ b < nvir, t.elem [i, j, a, b] = mp2Amplitude oo vv V i j a b) : AntisymmetricArray nocc nvir t := by
  intro i hi j hj a ha b hb
  rw [h i hi j hj a ha b hb, h j hj i hi a ha b hb, h i hi j hj b hb a ha]
  unfold mp2Amplitude
  rw [(aV i hi j hj a ha b hb).1, (aV i hi j hj a ha b hb).2, neg_div, neg_div, add_comm (oo.elem [j, j]), sub_right_comm _ (vv.elem [b, b])]
  exact ⟨rfl, rfl⟩

/-- **C97**: for every Hamiltonian whose Fock blocks are diagonal, whose two-body block is antisymmetric and whose excitation energies are different from zero, for any
number of rounds from one on and any test of convergence, the loop of the notebook started from zero amplitudes ends with the first-order amplitudes
`V[ijab] / (ε_i + ε_j - ε_a - ε_b)` and the second-order energy `1/4 Σ V[ijab]^2 / (ε_i + ε_j - ε_a - ε_b)`. -/
theorem C97_mp2 {fmt : Rational → Str} (hfmt : PrintsNine fmt) (nocc nvir : Nat) (H : List (Str × NdArray S)) (oo vv V : NdArray S)
    (hoo : HasArray H "oo".toList oo) (hvv : HasArray H "vv".toList vv) (hV : HasArray H "oovv".toList V)
    (sO : oo.shape = [nocc, nocc]) (sV : vv.shape = [nvir, nvir]) (sVV : V.shape = [nocc, nocc, nvir, nvir])
    (dO : DiagonalArray nocc oo) (dV : DiagonalArray nvir vv) (aV : AntisymmetricArray nocc nvir V) (hne : NonzeroEnergies 2 nocc nvir oo vv) :
    ∃ invD text, inverseDenominators H 2 = .ok invD ∧ mp2Function (runReg OSI.empty mp2Spaces) fmt = .ok text ∧
      ∀ residual, ReturnsResidual H nocc nvir text residual → ∀ (stop : NdArray S → Bool) (maxiter : Nat), 1 ≤ maxiter →
        ∃ t, mp2Loop residual nocc nvir H invD stop maxiter [("oovv".toList, ⟨[nocc, nocc, nvir, nvir], fun _ => 0⟩)] none =
            .ok ([("oovv".toList, t)], some (mp2CorrelationEnergy nocc nvir oo vv V)) ∧ t.shape = [nocc, nocc, nvir, nvir] ∧
          ∀ i < nocc, ∀ j < nocc, ∀ a < nvir, ∀ b < nvir, t.elem [i, j, a, b] = mp2Amplitude oo vv V i j a b := by
  obtain ⟨invD, hD, hX⟩ := C83_denominators H oo vv nocc nvir hoo hvv sO sV 2 (by decide)
  obtain ⟨X, hX, iX⟩ := hX 2 (by decide) (by decide)
  have hX : HasArray invD "oovv".toList X := hX
  refine ⟨invD, _, hD, C97_function fmt, fun residual hres stop maxiter hm => ?_⟩
  obtain ⟨m, rfl⟩ : ∃ m, maxiter = m + 1 := ⟨maxiter - 1, by omega⟩
  have key : ∀ (m : Nat) (t : NdArray S) (E : Option S), t.shape = [nocc, nocc, nvir, nvir] → AntisymmetricArray nocc nvir t →
      ∃ t', mp2Loop residual nocc nvir H invD stop (m + 1) [("oovv".toList, t)] E = .ok ([("oovv".toList, t')], some (mp2CorrelationEnergy nocc nvir oo vv V)) ∧
        t'.shape = [nocc, nocc, nvir, nvir] ∧ ∀ i < nocc, ∀ j < nocc, ∀ a < nvir, ∀ b < nvir, t'.elem [i, j, a, b] = mp2Amplitude oo vv V i j a b := by
    intro m
    induction m with
    | zero =>
      intro t E ht ha
      obtain ⟨t', h1, h2, h3⟩ := mp2_round hfmt hoo hvv hV dO dV aV hX iX hne (C97_function fmt) hres t ht ha
      refine ⟨t', ?_, h2, h3⟩
      simp only [mp2Loop, h1, bind, Except.bind, mp2_energy hV sVV h2 h3]
      split <;> rfl
    | succ m ih =>
      intro t E ht ha
      obtain ⟨t', h1, h2, h3⟩ := mp2_round hfmt hoo hvv hV dO dV aV hX iX hne (C97_function fmt) hres t ht ha
      rw [mp2Loop]
      simp only [h1, bind, Except.bind, mp2_energy hV sVV h2 h3]
      split
      · exact ⟨t', rfl, h2, h3⟩
      · exact ih t' _ h2 (amplitude_antisymmetric aV h3)
  exact key m _ none rfl (fun i _ j _ a _ b _ => by simp)

/-- for all arrays there is a function that returns what the generated text returns -/
theorem residual_exists {fmt : Rational → Str} (hfmt : PrintsNine fmt) (H : List (Str × NdArray S)) (nocc nvir : Nat) {text : Str}
    (h : mp2Function (runReg OSI.empty mp2Spaces) fmt = .ok text) : ∃ residual, ReturnsResidual H nocc nvir text residual := by
  have h' : ∀ T2 : List (Str × NdArray S), ∃ r, ReturnsArray (mp2Arrays H T2) (mp2Dom nocc nvir) text "evaluate_residual".toList (some ["nocc".toList, "nocc".toList, "nvir".toList, "nvir".toList]) r := by
    intro T2
    obtain ⟨t, r, h1, h2, _⟩ := C97_residual (R := S) hfmt (mp2Arrays H T2) (mp2Dom nocc nvir)
    rw [h] at h1
    cases h1
    exact ⟨r, h2⟩
  choose r hr using h'
  exact ⟨fun T2 => ⟨[nocc, nocc, nvir, nvir], r T2⟩, fun T2 _ => hr T2⟩
end

/-! ## An instance: two occupied and two virtual orbitals -/

/-- orbital energies -2, -1 -/
def exOO : NdArray ℚ := ⟨[2, 2], fun x => if x = [0, 0] then -2 else if x = [1, 1] then -1 else 0⟩
/-- orbital energies 1, 2 -/
def exVV : NdArray ℚ := ⟨[2, 2], fun x => if x = [0, 0] then 1 else if x = [1, 1] then 2 else 0⟩
/-- integrals -/
def exV : NdArray ℚ := ⟨[2, 2, 2, 2], fun x => ((x.getD 0 0 : ℚ) - x.getD 1 0) * ((x.getD 2 0 : ℚ) - x.getD 3 0)⟩
def exH : List (Str × NdArray ℚ) := [("oo".toList, exOO), ("vv".toList, exVV), ("oovv".toList, exV)]

/-- the notebook with ten rounds for these integrals: the amplitude is -1/6 and the energy -1/6 -/
example : ∃ invD text residual t, inverseDenominators exH 2 = .ok invD ∧ mp2Function (runReg OSI.empty mp2Spaces) (cutAt 9) = .ok text ∧ ReturnsResidual exH 2 2 text residual ∧
    mp2Loop residual 2 2 exH invD (fun R => decide (R.elem [0, 1, 0, 1] = 0)) 10 [("oovv".toList, ⟨[2, 2, 2, 2], fun _ => 0⟩)] none = .ok ([("oovv".toList, t)], some (-1 / 6)) ∧
    t.elem [0, 1, 0, 1] = -1 / 6 ∧ t.elem [1, 0, 0, 1] = 1 / 6 := by
  obtain ⟨invD, text, h1, h2, h3⟩ := C97_mp2 cut9_prints 2 2 exH exOO exVV exV rfl rfl rfl rfl rfl rfl
    (by unfold DiagonalArray; decide +kernel) (by unfold DiagonalArray; decide +kernel) (by unfold AntisymmetricArray; decide +kernel) (by
      intro I A hI hA
      match I, A, hI, hA with
      | [i, j], [a, b], .cons hi (.cons hj .nil), .cons ha (.cons hb .nil) =>
        have h : ∀ i < 2, ∀ j < 2, ∀ a < 2, ∀ b < 2, (([i, j].map (fun i => exOO.elem [i, i])).sum - ([a, b].map (fun a => exVV.elem [a, a])).sum) ≠ 0 := by decide +kernel
        exact h i hi j hj a ha b hb)
  obtain ⟨residual, hr⟩ := residual_exists cut9_prints exH 2 2 h2
  obtain ⟨t, h4, _, h5⟩ := h3 residual hr (fun R => decide (R.elem [0, 1, 0, 1] = 0)) 10 (by decide)
  refine ⟨invD, text, residual, t, h1, h2, hr, ?_, ?_, ?_⟩
  · rw [h4, show mp2CorrelationEnergy 2 2 exOO exVV exV = -1 / 6 from by decide +kernel]
  · rw [h5 0 (by decide) 1 (by decide) 0 (by decide) 1 (by decide)]; decide +kernel
  · rw [h5 1 (by decide) 0 (by decide) 0 (by decide) 1 (by decide)]; decide +kernel
end Wick
end Wicked
