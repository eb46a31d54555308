import Verif.Proofs.Antisym
/-! # C81: the antisymmetrisation helpers of the numerical examples -/
namespace Wicked
open Equiv

section
variable {Ω S A : Type} [Inhabited Ω] [DecidableEq Ω] [CommRing S]
theorem univ_perm2 : (Finset.univ : Finset (Perm (Fin 2))) = {1, swap 0 1} := by decide
theorem univ_perm3 : (Finset.univ : Finset (Perm (Fin 3))) = {1, swap 0 1, swap 1 2, swap 0 2, swap 0 1 * swap 1 2, swap 1 2 * swap 0 1} := by decide

theorem sum_perm2 (f : Perm (Fin 2) → S) : ∑ σ, f σ = f 1 + f (swap 0 1) := by
  rw [univ_perm2, Finset.sum_pair (by decide)]
theorem sum_perm3 (f : Perm (Fin 3) → S) : ∑ σ, f σ = f 1 + f (swap 0 1) + f (swap 1 2) + f (swap 0 2) + f (swap 0 1 * swap 1 2) + f (swap 1 2 * swap 0 1) := by
  rw [univ_perm3, Finset.sum_insert (by decide), Finset.sum_insert (by decide), Finset.sum_insert (by decide), Finset.sum_insert (by decide), Finset.sum_pair (by decide)]
  ring

theorem permuted2 (a b : Ω) : permuted (swap 0 1 : Perm (Fin 2)) [a, b] = [b, a] := by simp [permuted]
theorem permuted2_one (a b : Ω) : permuted (1 : Perm (Fin 2)) [a, b] = [a, b] := by simp [permuted]

theorem antisymmetrizer_two (X : List Ω → S) (u v : List Ω) (a b : Ω) : antisymmetrizer u.length 2 X (u ++ a :: b :: v) = X (u ++ a :: b :: v) - X (u ++ b :: a :: v) := by
  rw [antisymmetrizer, sum_perm2]
  simp [permuted, ← List.drop_drop]
  ring

theorem antisymmetrizer_three (X : List Ω → S) (u v : List Ω) (a b c : Ω) : antisymmetrizer u.length 3 X (u ++ a :: b :: c :: v) =
    X (u ++ a :: b :: c :: v) - X (u ++ b :: a :: c :: v) - X (u ++ a :: c :: b :: v) - X (u ++ c :: b :: a :: v) +
    X (u ++ b :: c :: a :: v) + X (u ++ c :: a :: b :: v) := by
  rw [antisymmetrizer, sum_perm3]
  have e1 : (swap 0 1 : Perm (Fin 3)) 2 = 2 := by decide
  have e2 : (swap 1 2 : Perm (Fin 3)) 0 = 0 := by decide
  have e3 : (swap 0 2 : Perm (Fin 3)) 1 = 1 := by decide
  simp [permuted, ← List.drop_drop, e1, e2, e3]
  ring


/-- **C81.** `antisymmetrize_residual_2_2` is the sum over all permutations of the first two and of the last two indices, with the signs of the permutations. -/
theorem C81_two_two (X : List Ω → S) {x : List Ω} (h : x.length = 4) : antisymmetrize22 X x = antisymmetrizer 0 2 (antisymmetrizer 2 2 X) x := by
  match x, h with
  | [i, j, a, b], _ =>
    have h1 := fun X i j a b => antisymmetrizer_two (Ω := Ω) (S := S) X [] [a, b] i j
    have h2 := fun X i j a b => antisymmetrizer_two (Ω := Ω) (S := S) X [i, j] [] a b
    simp only [List.length_nil, List.length_cons, List.nil_append, List.cons_append] at h1 h2
    rw [h1, h2, h2]
    simp [antisymmetrize22, runTranspose, antisym22Lines, einsumTranspose]
    ring

/-- **C81.** `antisymmetrize_residual_3_3`, all 36 lines. -/
theorem C81_three_three (X : List Ω → S) {x : List Ω} (h : x.length = 6) : antisymmetrize33 X x = antisymmetrizer 0 3 (antisymmetrizer 3 3 X) x := by
  match x, h with
  | [i, j, k, a, b, c], _ =>
    have h1 := fun X i j k a b c => antisymmetrizer_three (Ω := Ω) (S := S) X [] [a, b, c] i j k
    have h2 := fun X i j k a b c => antisymmetrizer_three (Ω := Ω) (S := S) X [i, j, k] [] a b c
    simp only [List.length_nil, List.length_cons, List.nil_append, List.cons_append] at h1 h2
    simp only [h1, h2]
    simp [antisymmetrize33, runTranspose, antisym33Lines, einsumTranspose]
    ring

/-- **C81.** `antisymmetrize_residual_3_3_aab` permutes the first two indices of either half -/
theorem C81_aab (X : List Ω → S) {x : List Ω} (h : x.length = 6) : antisymmetrizeAab X x = antisymmetrizer 0 2 (antisymmetrizer 3 2 X) x := by
  match x, h with
  | [i, j, k, a, b, c], _ =>
    have h1 := fun X i j k a b c => antisymmetrizer_two (Ω := Ω) (S := S) X [] [k, a, b, c] i j
    have h2 := fun X i j k a b c => antisymmetrizer_two (Ω := Ω) (S := S) X [i, j, k] [c] a b
    simp only [List.length_nil, List.length_cons, List.nil_append, List.cons_append] at h1 h2
    simp only [h1, h2]
    simp [antisymmetrizeAab, runTranspose, antisymAabLines, einsumTranspose]
    ring

/-- **C81.** `antisymmetrize_residual_3_3_abb` permutes the last two indices of either half -/
theorem C81_abb (X : List Ω → S) {x : List Ω} (h : x.length = 6) : antisymmetrizeAbb X x = antisymmetrizer 1 2 (antisymmetrizer 4 2 X) x := by
  match x, h with
  | [i, j, k, a, b, c], _ =>
    have h1 := fun X i j k a b c => antisymmetrizer_two (Ω := Ω) (S := S) X [i] [a, b, c] j k
    have h2 := fun X i j k a b c => antisymmetrizer_two (Ω := Ω) (S := S) X [i, j, k, a] [] b c
    simp only [List.length_nil, List.length_cons, List.nil_append, List.cons_append] at h1 h2
    simp only [h1, h2]
    simp [antisymmetrizeAbb, runTranspose, antisymAbbLines, einsumTranspose]
    ring

theorem antisymmetrizer_append {p n : Nat} (X : List Ω → S) {u s v : List Ω} (hu : u.length = p) (hs : s.length = n) :
    antisymmetrizer p n X (u ++ s ++ v) = ∑ σ : Perm (Fin n), ((Perm.sign σ : Int) : S) * X (u ++ permuted σ s ++ v) := by
  rw [antisymmetrizer]
  apply Finset.sum_congr rfl
  intro σ _
  rw [List.append_assoc u s v, List.take_left' hu, List.drop_left' hu, List.take_left' hs, ← List.drop_drop, List.drop_left' hu, List.drop_left' hs]

/-- **C81.** The antisymmetrised array changes by the sign of the permutation when the permuted indices are rearranged. -/
theorem C81_changes_sign {p n : Nat} (X : List Ω → S) {u s v : List Ω} (hu : u.length = p) (hs : s.length = n) (τ : Perm (Fin n)) :
    antisymmetrizer p n X (u ++ permuted τ s ++ v) = ((Perm.sign τ : Int) : S) * antisymmetrizer p n X (u ++ s ++ v) := by
  rw [antisymmetrizer_append X hu (permuted_length _ _), antisymmetrizer_append X hu hs, Finset.mul_sum]
  conv_rhs => rw [← Equiv.sum_comp (Equiv.mulLeft τ)]
  apply Finset.sum_congr rfl
  intro σ _
  rw [Equiv.coe_mulLeft, permuted_mul, Perm.sign_mul, ← mul_assoc]
  congr 1
  have : ((Perm.sign τ : Int) : S) * ((Perm.sign τ : Int) : S) = 1 := by
    rw [← Int.cast_mul, ← Units.val_mul, Int.units_mul_self]; simp
  push_cast
  linear_combination (-((Perm.sign σ : Int) : S)) * this

/-- **C81.** An array that already changes sign is multiplied by `n!` -/
theorem C81_already {p n : Nat} (X : List Ω → S) {u s v : List Ω} (hu : u.length = p) (hs : s.length = n)
    (h : ∀ σ : Perm (Fin n), X (u ++ permuted σ s ++ v) = ((Perm.sign σ : Int) : S) * X (u ++ s ++ v)) :
    antisymmetrizer p n X (u ++ s ++ v) = (n.factorial : S) * X (u ++ s ++ v) := by
  rw [antisymmetrizer_append X hu hs]
  have : ∀ σ : Perm (Fin n), ((Perm.sign σ : Int) : S) * X (u ++ permuted σ s ++ v) = X (u ++ s ++ v) := by
    intro σ
    rw [h, ← mul_assoc, ← Int.cast_mul, ← Units.val_mul, Int.units_mul_self]; simp
  rw [Finset.sum_congr rfl (fun σ _ => this σ), Finset.sum_const, Finset.card_univ, Fintype.card_perm, Fintype.card_fin, nsmul_eq_mul]

/-! ## the operator -/
section
variable [Ring A] [Algebra S A]

theorem alternates_lower {N : List (SQType × Ω) → A} (hN : SwapsSign N) (w : List (SQType × Ω)) :
    Alternates (fun l : List Ω => N (l.map (fun x => (.creation, x)) ++ w)) := by
  intro xs a b ys
  have := hN (xs.map (fun x => (SQType.creation, x))) .creation a b (ys.map (fun x => (SQType.creation, x)) ++ w)
  simpa using this

theorem alternates_upper {N : List (SQType × Ω) → A} (hN : SwapsSign N) (w : List (SQType × Ω)) :
    Alternates (fun u : List Ω => N (w ++ u.reverse.map (fun x => (.annihilation, x)))) := by
  intro xs a b ys
  have := hN (w ++ ys.reverse.map (fun x => (SQType.annihilation, x))) .annihilation b a (xs.reverse.map (fun x => (SQType.annihilation, x)))
  simpa using this

theorem antisymmetrizer_left {p n : Nat} (X : List Ω → S) {u l : List Ω} (h : p + n ≤ u.length) :
    antisymmetrizer p n X (u ++ l) = antisymmetrizer p n (fun u => X (u ++ l)) u := by
  rw [antisymmetrizer, antisymmetrizer]
  apply Finset.sum_congr rfl
  intro σ _
  rw [List.take_append_of_le_length (by omega), List.drop_append_of_le_length (by omega), List.drop_append_of_le_length (by omega),
    List.take_append_of_le_length (by simp; omega)]
  simp

theorem antisymmetrizer_right {p n : Nat} (X : List Ω → S) {u l : List Ω} :
    antisymmetrizer (u.length + p) n X (u ++ l) = antisymmetrizer p n (fun l => X (u ++ l)) l := by
  rw [antisymmetrizer, antisymmetrizer]
  apply Finset.sum_congr rfl
  intro σ _
  rw [List.take_length_add_append, List.drop_length_add_append, Nat.add_assoc, List.drop_length_add_append]
  simp

theorem sumTuples_swap [AddCommMonoid A] (ds es : List (Finset Ω)) (F : List Ω → List Ω → A) :
    sumTuples ds (fun u => sumTuples es (fun l => F u l)) = sumTuples es (fun l => sumTuples ds (fun u => F u l)) := by
  induction ds generalizing F with
  | nil => rfl
  | cons d ds ih =>
    simp only [sumTuples]
    rw [sumTuples_finset_sum]
    exact Finset.sum_congr rfl (fun a _ => ih _)

/-- **C81.** Antisymmetrising upper indices of one space multiplies the operator that the array stands for by `n!` -/
theorem C81_upper (dom : Char → Finset Ω) {N : List (SQType × Ω) → A} (hN : SwapsSign N) (key : Str) (r : List Ω → S) {a b : Str} {c : Char} {n : Nat}
    (hk : keyUpper key = a ++ List.replicate n c ++ b) :
    keyOperator dom N key (antisymmetrizer a.length n r) = n.factorial • keyOperator dom N key r := by
  unfold keyOperator
  rw [hk, sumTuples_swap, sumTuples_swap (List.map dom (a ++ _ ++ b)), ← sumTuples_smul]
  apply sumTuples_congr
  intro l _
  have := sumTuples_antisymmetrizer (a.map dom) (b.map dom) (dom c) n (fun u => r (u ++ l)) (alternates_upper hN (l.map (fun x => (.creation, x))))
  rw [← List.map_replicate, ← List.map_append, ← List.map_append, List.length_map] at this
  rw [← this]
  apply sumTuples_congr
  intro u hu
  rw [antisymmetrizer_left _ (by simp at hu; omega)]

/-- **C81.** ... and lower indices likewise. -/
theorem C81_lower (dom : Char → Finset Ω) {N : List (SQType × Ω) → A} (hN : SwapsSign N) (key : Str) (r : List Ω → S) {a b : Str} {c : Char} {n : Nat}
    (hk : keyLower key = a ++ List.replicate n c ++ b) :
    keyOperator dom N key (antisymmetrizer ((keyUpper key).length + a.length) n r) = n.factorial • keyOperator dom N key r := by
  unfold keyOperator
  rw [hk, ← sumTuples_smul]
  apply sumTuples_congr
  intro u hu
  rw [List.length_map] at hu
  have := sumTuples_antisymmetrizer (a.map dom) (b.map dom) (dom c) n (fun l => r (u ++ l)) (alternates_lower hN (u.reverse.map (fun x => (.annihilation, x))))
  rw [← List.map_replicate, ← List.map_append, ← List.map_append, List.length_map] at this
  rw [← this]
  apply sumTuples_congr
  intro l hl
  rw [← hu, antisymmetrizer_right]

theorem keyOperator_congr (dom : Char → Finset Ω) (N : List (SQType × Ω) → A) (key : Str) {r r' : List Ω → S}
    (h : ∀ x, x.length = (keyUpper key).length + (keyLower key).length → r x = r' x) : keyOperator dom N key r = keyOperator dom N key r' := by
  unfold keyOperator
  apply sumTuples_congr
  intro u hu
  apply sumTuples_congr
  intro l hl
  rw [h _ (by simp at hu hl ⊢; omega)]

/-- **C81.** The antisymmetrised residual of a key such as `oo|vv` stands for four times the operator that the residual stands for. -/
theorem C81_operator_two_two (dom : Char → Finset Ω) {N : List (SQType × Ω) → A} (hN : SwapsSign N) {key : Str} {o v : Char} (hu : keyUpper key = [o, o])
    (hl : keyLower key = [v, v]) (r : List Ω → S) : keyOperator dom N key (antisymmetrize22 r) = 4 • keyOperator dom N key r := by
  rw [keyOperator_congr dom N key (fun x hx => C81_two_two r (by simpa [hu, hl] using hx))]
  have h1 := C81_upper dom hN key (antisymmetrizer 2 2 r) (a := []) (b := []) (c := o) (n := 2) (by simp [hu])
  have h2 := C81_lower dom hN key r (a := []) (b := []) (c := v) (n := 2) (by simp [hl])
  simp only [hu, List.length_cons, List.length_nil, Nat.reduceAdd, Nat.add_zero] at h1 h2
  rw [h1, h2, smul_smul]
  rfl

/-- **C81.** ... of a key such as `ooo|vvv`: thirty-six times. -/
theorem C81_operator_three_three (dom : Char → Finset Ω) {N : List (SQType × Ω) → A} (hN : SwapsSign N) {key : Str} {o v : Char} (hu : keyUpper key = [o, o, o])
    (hl : keyLower key = [v, v, v]) (r : List Ω → S) : keyOperator dom N key (antisymmetrize33 r) = 36 • keyOperator dom N key r := by
  rw [keyOperator_congr dom N key (fun x hx => C81_three_three r (by simpa [hu, hl] using hx))]
  have h1 := C81_upper dom hN key (antisymmetrizer 3 3 r) (a := []) (b := []) (c := o) (n := 3) (by simp [hu])
  have h2 := C81_lower dom hN key r (a := []) (b := []) (c := v) (n := 3) (by simp [hl])
  simp only [hu, List.length_cons, List.length_nil, Nat.reduceAdd, Nat.add_zero] at h1 h2
  rw [h1, h2, smul_smul]
  rfl

/-- **C81.** ... of a key such as `ooO|Vvv`: four times. -/
theorem C81_operator_aab (dom : Char → Finset Ω) {N : List (SQType × Ω) → A} (hN : SwapsSign N) {key : Str} {o o' v v' : Char} (hu : keyUpper key = [o, o, o'])
    (hl : keyLower key = [v, v, v']) (r : List Ω → S) : keyOperator dom N key (antisymmetrizeAab r) = 4 • keyOperator dom N key r := by
  rw [keyOperator_congr dom N key (fun x hx => C81_aab r (by simpa [hu, hl] using hx))]
  have h1 := C81_upper dom hN key (antisymmetrizer 3 2 r) (a := []) (b := [o']) (c := o) (n := 2) (by simp [hu])
  have h2 := C81_lower dom hN key r (a := []) (b := [v']) (c := v) (n := 2) (by simp [hl])
  simp only [hu, List.length_cons, List.length_nil, Nat.reduceAdd, Nat.add_zero] at h1 h2
  rw [h1, h2, smul_smul]
  rfl

/-- **C81.** ... of a key such as `oOO|VVv`: four times. -/
theorem C81_operator_abb (dom : Char → Finset Ω) {N : List (SQType × Ω) → A} (hN : SwapsSign N) {key : Str} {o o' v v' : Char} (hu : keyUpper key = [o, o', o'])
    (hl : keyLower key = [v, v', v']) (r : List Ω → S) : keyOperator dom N key (antisymmetrizeAbb r) = 4 • keyOperator dom N key r := by
  rw [keyOperator_congr dom N key (fun x hx => C81_abb r (by simpa [hu, hl] using hx))]
  have h1 := C81_upper dom hN key (antisymmetrizer 4 2 r) (a := [o]) (b := []) (c := o') (n := 2) (by simp [hu])
  have h2 := C81_lower dom hN key r (a := [v]) (b := []) (c := v') (n := 2) (by simp [hl])
  simp only [hu, List.length_cons, List.length_nil, Nat.reduceAdd, Nat.add_zero] at h1 h2
  rw [h1, h2, smul_smul]
  rfl
end

/-! ## the residual vanishes iff the operator does -/
theorem sumTuples_adjoint (a b : List (Finset Ω)) (d : Finset Ω) (n : Nat) (X Y : List Ω → S) :
    sumTuples (a ++ List.replicate n d ++ b) (fun s => antisymmetrizer a.length n X s * Y s) =
      sumTuples (a ++ List.replicate n d ++ b) (fun s => X s * antisymmetrizer a.length n Y s) := by
  have key : ∀ (σ : Perm (Fin n)),
      sumTuples (a ++ List.replicate n d ++ b) (fun s => (((Perm.sign σ : Int) : S) * X (s.take a.length ++ permuted σ ((s.drop a.length).take n) ++ s.drop (a.length + n))) * Y s)
        = sumTuples (a ++ List.replicate n d ++ b) (fun s => X s * (((Perm.sign σ⁻¹ : Int) : S) * Y (s.take a.length ++ permuted σ⁻¹ ((s.drop a.length).take n) ++ s.drop (a.length + n)))) := by
    intro σ
    rw [List.append_assoc, sumTuples_append, sumTuples_append]
    apply sumTuples_congr
    intro u hu
    rw [sumTuples_append, sumTuples_append, ← sumTuples_permuted d σ (fun s => sumTuples b (fun l => X (u ++ (s ++ l)) * _))]
    apply sumTuples_congr
    intro s hs
    rw [List.length_replicate] at hs
    apply sumTuples_congr
    intro l _
    have e : permuted σ⁻¹ (permuted σ s) = s := by rw [← permuted_mul, mul_inv_cancel, permuted_one hs]
    simp only [List.take_left' hu, List.drop_left' hu, List.take_left' hs, ← List.drop_drop, List.drop_left' hs, List.take_left' (permuted_length σ s),
      List.drop_left' (permuted_length σ s), e, List.append_assoc, Perm.sign_inv]
    ring
  have h2 : ∀ X Y : List Ω → S, (fun s => antisymmetrizer a.length n X s * Y s) = fun s => ∑ σ : Perm (Fin n),
      (((Perm.sign σ : Int) : S) * X (s.take a.length ++ permuted σ ((s.drop a.length).take n) ++ s.drop (a.length + n))) * Y s := by
    intro X Y
    funext s
    rw [antisymmetrizer, Finset.sum_mul]
  have h3 : (fun s => X s * antisymmetrizer a.length n Y s) = fun s => ∑ σ : Perm (Fin n),
      X s * (((Perm.sign σ : Int) : S) * Y (s.take a.length ++ permuted σ ((s.drop a.length).take n) ++ s.drop (a.length + n))) := by
    funext s
    rw [antisymmetrizer, Finset.mul_sum]
  rw [h2, h3, sumTuples_finset_sum, sumTuples_finset_sum, Finset.sum_congr rfl (fun σ _ => key σ)]
  exact Equiv.sum_comp (Equiv.inv (Perm (Fin n))) (fun σ => sumTuples (a ++ List.replicate n d ++ b) (fun s => X s * (((Perm.sign σ : Int) : S) * Y (s.take a.length ++ permuted σ ((s.drop a.length).take n) ++ s.drop (a.length + n)))))

theorem sumTuples_delta (ds : List (Finset Ω)) (x : List Ω) (hx : List.Forall₂ (· ∈ ·) x ds) (F : List Ω → S) :
    sumTuples ds (fun y => F y * if y = x then 1 else 0) = F x := by
  induction hx generalizing F with
  | nil => simp [sumTuples]
  | @cons a d x ds ha _ ih =>
    simp only [sumTuples]
    rw [Finset.sum_eq_single a]
    · simpa using ih (fun l => F (a :: l))
    · intro b _ hb
      simp [hb, sumTuples_zero]
    · intro h; exact absurd ha h

/-- the words made of `m` creation operators followed by `n` annihilation operators, valued by an array -/
def blockValue (m n : Nat) (D : List Ω → S) (w : List (SQType × Ω)) : S :=
  if w.map Prod.fst = List.replicate m .creation ++ List.replicate n .annihilation then D (((w.drop m).map Prod.snd).reverse ++ (w.take m).map Prod.snd) else 0

theorem blockValue_exchanges {m n : Nat} {D : List Ω → S}
    (hu : ∀ l, l.length = m → ∀ xs a b ys, xs.length + ys.length + 2 = n → D ((xs ++ a :: b :: ys) ++ l) = - D ((xs ++ b :: a :: ys) ++ l))
    (hl : ∀ u, u.length = n → ∀ xs a b ys, xs.length + ys.length + 2 = m → D (u ++ (xs ++ a :: b :: ys)) = - D (u ++ (xs ++ b :: a :: ys))) : SwapsSign (blockValue m n D) := by
  intro xs ty a b ys
  unfold blockValue
  have e : (xs ++ (ty, b) :: (ty, a) :: ys).map Prod.fst = (xs ++ (ty, a) :: (ty, b) :: ys).map Prod.fst := by simp
  rw [e]
  split
  next h =>
    have hlen : xs.length + (ys.length + 2) = m + n := by simpa using congrArg List.length h
    by_cases hm : xs.length + 1 < m
    · obtain ⟨k, rfl⟩ : ∃ k, m = xs.length + (2 + k) := ⟨m - xs.length - 2, by omega⟩
      have t : ∀ p q : SQType × Ω, (xs ++ p :: q :: ys).take (xs.length + (2 + k)) = xs ++ p :: q :: ys.take k := by
        intro p q; rw [List.take_length_add_append, Nat.add_comm 2 k]; rfl
      have t' : ∀ p q : SQType × Ω, (xs ++ p :: q :: ys).drop (xs.length + (2 + k)) = ys.drop k := by
        intro p q; rw [List.drop_length_add_append, Nat.add_comm 2 k]; rfl
      rw [t, t, t', t']
      have := hl ((ys.drop k).map Prod.snd).reverse (by simp; omega) (xs.map Prod.snd) a b ((ys.take k).map Prod.snd) (by simp; omega)
      simpa using this
    · by_cases hm' : m ≤ xs.length
      · rw [List.take_append_of_le_length hm', List.take_append_of_le_length hm', List.drop_append_of_le_length hm', List.drop_append_of_le_length hm']
        have := hu ((xs.take m).map Prod.snd) (by simp; omega) (ys.map Prod.snd).reverse b a ((xs.drop m).map Prod.snd).reverse (by simp; omega)
        simpa using this
      · exfalso
        have h1 : ((xs ++ (ty, a) :: (ty, b) :: ys).map Prod.fst)[xs.length]? = some ty := by simp
        have h2 : ((xs ++ (ty, a) :: (ty, b) :: ys).map Prod.fst)[xs.length + 1]? = some ty := by simp
        rw [h, List.getElem?_append_left (by simp; omega), List.getElem?_replicate_of_lt (by omega)] at h1
        rw [h, List.getElem?_append_right (by simp; omega), List.getElem?_replicate_of_lt (by simp; omega)] at h2
        rw [← h2] at h1
        simp at h1
  next => simp

theorem alternates_antisymmetrizer {p n : Nat} (X : List Ω → S) {u v xs ys : List Ω} {a b : Ω} (hu : u.length = p) (hn : xs.length + ys.length + 2 = n) :
    antisymmetrizer p n X (u ++ (xs ++ a :: b :: ys) ++ v) = - antisymmetrizer p n X (u ++ (xs ++ b :: a :: ys) ++ v) := by
  obtain ⟨k, rfl⟩ : ∃ k, n = k + 1 := ⟨n - 1, by omega⟩
  have hs : (xs ++ b :: a :: ys).length = k + 1 := by simp; omega
  obtain ⟨xs', p', q', ys', e3, e1, e2⟩ := split_two hs ⟨xs.length, by omega⟩
  have h1 : xs' = xs := (List.append_inj_left e1 e3.symm).symm
  subst h1
  have h2 := List.append_cancel_left e1
  injection h2 with h2 h3
  injection h3 with h3 h4
  subst h2 h3 h4
  have := C81_changes_sign X hu hs (v := v) (swap (Fin.castSucc ⟨xs'.length, by omega⟩) (Fin.succ ⟨xs'.length, by omega⟩))
  rw [e2, Perm.sign_swap (by intro h'; have := congrArg Fin.val h'; simp at this)] at this
  rw [this]
  simp

/-- the array `r` with the first `n` and the following `m` indices antisymmetrised -/
theorem antisymmetrizer_comm {n m : Nat} (X : List Ω → S) {x : List Ω} (hx : x.length = n + m) :
    antisymmetrizer 0 n (antisymmetrizer n m X) x = antisymmetrizer n m (antisymmetrizer 0 n X) x := by
  obtain ⟨u, l, rfl, hu, hl⟩ : ∃ u l, x = u ++ l ∧ u.length = n ∧ l.length = m :=
    ⟨x.take n, x.drop n, (List.take_append_drop n x).symm, by simp; omega, by simp; omega⟩
  have e1 : ∀ Y : List Ω → S, ∀ u l : List Ω, u.length = n → antisymmetrizer 0 n Y (u ++ l) = ∑ σ : Perm (Fin n), ((Perm.sign σ : Int) : S) * Y (permuted σ u ++ l) := by
    intro Y u l hu
    have := antisymmetrizer_append Y (u := []) (s := u) (v := l) rfl hu
    simpa using this
  have e2 : ∀ Y : List Ω → S, ∀ u l : List Ω, u.length = n → l.length = m → antisymmetrizer n m Y (u ++ l) = ∑ σ : Perm (Fin m), ((Perm.sign σ : Int) : S) * Y (u ++ permuted σ l) := by
    intro Y u l hu hl
    have := antisymmetrizer_append Y (u := u) (s := l) (v := []) hu hl
    simpa using this
  rw [e1 _ _ _ hu, e2 _ _ _ hu hl]
  have f1 : ∀ σ : Perm (Fin n), antisymmetrizer n m X (permuted σ u ++ l) = ∑ τ : Perm (Fin m), ((Perm.sign τ : Int) : S) * X (permuted σ u ++ permuted τ l) :=
    fun σ => e2 _ _ _ (permuted_length _ _) hl
  have f2 : ∀ τ : Perm (Fin m), antisymmetrizer 0 n X (u ++ permuted τ l) = ∑ σ : Perm (Fin n), ((Perm.sign σ : Int) : S) * X (permuted σ u ++ permuted τ l) :=
    fun τ => e1 _ _ _ hu
  simp only [f1, f2, Finset.mul_sum]
  rw [Finset.sum_comm]
  apply Finset.sum_congr rfl; intro τ _
  apply Finset.sum_congr rfl; intro σ _
  ring

theorem sumTuples_congr_mem {A : Type} [AddCommMonoid A] {ds : List (Finset Ω)} {F G : List Ω → A} (h : ∀ l, List.Forall₂ (· ∈ ·) l ds → F l = G l) : sumTuples ds F = sumTuples ds G := by
  induction ds generalizing F G with
  | nil => exact h [] List.Forall₂.nil
  | cons d ds ih =>
    simp only [sumTuples]
    exact Finset.sum_congr rfl (fun a ha => ih (fun l hl => h _ (List.Forall₂.cons ha hl)))

theorem nsmul_cancel [Algebra ℚ S] {A : Type} [Ring A] [Algebra S A] {k : Nat} (hk : k ≠ 0) {a : A} (h : k • a = 0) : a = 0 := by
  have h1 : (algebraMap ℚ S (k : ℚ)⁻¹ * (k : S)) = 1 := by
    rw [← map_natCast (algebraMap ℚ S), ← map_mul, inv_mul_cancel₀ (by exact_mod_cast hk), map_one]
  rw [← one_smul S a, ← h1, mul_smul, Nat.cast_smul_eq_nsmul, h, smul_zero]

/-- **C81.** For a key whose upper indices all belong to one space and whose lower indices all belong to one space, the fully antisymmetrised array is zero iff the operator
that the array stands for is zero in every algebra in which operators of the same kind anticommute. -/
theorem C81_zero_iff [Algebra ℚ S] (dom : Char → Finset Ω) {key : Str} {o v : Char} {n m : Nat} (hu : keyUpper key = List.replicate n o) (hl : keyLower key = List.replicate m v) (r : List Ω → S) :
    (∀ x, List.Forall₂ (· ∈ ·) x ((keyUpper key ++ keyLower key).map dom) → antisymmetrizer 0 n (antisymmetrizer n m r) x = 0) ↔
    ∀ (A : Type) [Ring A] [Algebra S A] (N : List (SQType × Ω) → A), SwapsSign N → keyOperator dom N key r = 0 := by
  constructor
  · intro h A _ _ N hN
    have h1 := C81_upper dom hN key (antisymmetrizer n m r) (a := []) (b := []) (c := o) (n := n) (by simp [hu])
    have h2 := C81_lower dom hN key r (a := []) (b := []) (c := v) (n := m) (by simp [hl])
    have hz : keyOperator dom N key (antisymmetrizer 0 n (antisymmetrizer n m r)) = 0 := by
      rw [← sumTuples_zero (A := A) ((keyUpper key).map dom)]
      unfold keyOperator
      apply sumTuples_congr_mem
      intro u hu'
      rw [← sumTuples_zero (A := A) ((keyLower key).map dom)]
      apply sumTuples_congr_mem
      intro l hl'
      rw [h _ (by rw [List.map_append]; exact List.rel_append hu' hl'), zero_smul]
    simp only [hu, List.length_nil, List.length_replicate, Nat.add_zero] at h1 h2
    rw [h1, h2, smul_smul] at hz
    exact nsmul_cancel (S := S) (Nat.mul_ne_zero (Nat.factorial_ne_zero _) (Nat.factorial_ne_zero _)) hz
  · intro h x hx
    have hN : SwapsSign (blockValue m n (antisymmetrizer n m (antisymmetrizer 0 n (fun y : List Ω => if y = x then (1 : S) else 0)))) := by
      apply blockValue_exchanges
      · intro l hl xs a b ys hn
        rw [← antisymmetrizer_comm _ (by simp; omega), ← antisymmetrizer_comm _ (by simp; omega)]
        exact alternates_antisymmetrizer _ (u := []) rfl hn
      · intro u hu xs a b ys hn
        have := alternates_antisymmetrizer (antisymmetrizer 0 n (fun y : List Ω => if y = x then (1 : S) else 0)) (v := []) (a := a) (b := b) hu hn
        simpa using this
    have h1 := h S _ hN
    unfold keyOperator at h1
    rw [hu, hl] at h1
    rw [hu, hl, List.map_append, List.map_replicate, List.map_replicate] at hx
    have h2 : ∀ u l : List Ω, u.length = n → l.length = m →
        blockValue m n (antisymmetrizer n m (antisymmetrizer 0 n (fun y : List Ω => if y = x then (1 : S) else 0))) (l.map (fun x => (SQType.creation, x)) ++ u.reverse.map (fun x => (SQType.annihilation, x)))
          = antisymmetrizer n m (antisymmetrizer 0 n (fun y : List Ω => if y = x then (1 : S) else 0)) (u ++ l) := by
      intro u l hu hl
      unfold blockValue
      rw [if_pos]
      · rw [List.take_left' (by simpa using hl), List.drop_left' (by simpa using hl)]
        simp [Function.comp_def]
      · simp [Function.comp_def, hu, hl]
    have h3 : sumTuples (List.replicate n (dom o) ++ List.replicate m (dom v)) (fun y => r y * antisymmetrizer n m (antisymmetrizer 0 n (fun y : List Ω => if y = x then (1 : S) else 0)) y) = 0 := by
      refine Eq.trans ?_ h1
      rw [sumTuples_append, List.map_replicate, List.map_replicate]
      apply sumTuples_congr
      intro u hu
      apply sumTuples_congr
      intro l hl
      rw [h2 u l (by simpa using hu) (by simpa using hl), smul_eq_mul]
    have a1 := fun X Y : List Ω → S => sumTuples_adjoint (List.replicate n (dom o)) [] (dom v) m X Y
    have a2 := fun X Y : List Ω → S => sumTuples_adjoint [] (List.replicate m (dom v)) (dom o) n X Y
    simp only [List.length_replicate, List.append_nil, List.nil_append, List.length_nil] at a1 a2
    rw [← a1, ← a2, sumTuples_delta _ _ hx] at h3
    exact h3

/-- **C81.** The antisymmetrised doubles residual is zero iff the operator is. -/
theorem C81_zero_iff_two_two [Algebra ℚ S] (dom : Char → Finset Ω) {key : Str} {o v : Char} (hu : keyUpper key = [o, o]) (hl : keyLower key = [v, v]) (r : List Ω → S) :
    (∀ i ∈ dom o, ∀ j ∈ dom o, ∀ a ∈ dom v, ∀ b ∈ dom v, antisymmetrize22 r [i, j, a, b] = 0) ↔
    ∀ (A : Type) [Ring A] [Algebra S A] (N : List (SQType × Ω) → A), SwapsSign N → keyOperator dom N key r = 0 := by
  rw [← C81_zero_iff dom (n := 2) (m := 2) hu hl r]
  constructor
  · intro h x hx
    rw [hu, hl] at hx
    have hlen : x.length = 4 := by simpa using hx.length_eq
    rw [← C81_two_two _ hlen]
    match x, hlen, hx with
    | [i, j, a, b], _, .cons hi (.cons hj (.cons ha (.cons hb _))) => exact h i hi j hj a ha b hb
  · intro h i hi j hj a ha b hb
    rw [C81_two_two _ rfl]
    apply h
    rw [hu, hl]
    exact .cons hi (.cons hj (.cons ha (.cons hb .nil)))

/-- **C81.** ... and the triples residual. -/
theorem C81_zero_iff_three_three [Algebra ℚ S] (dom : Char → Finset Ω) {key : Str} {o v : Char} (hu : keyUpper key = [o, o, o]) (hl : keyLower key = [v, v, v]) (r : List Ω → S) :
    (∀ i ∈ dom o, ∀ j ∈ dom o, ∀ k ∈ dom o, ∀ a ∈ dom v, ∀ b ∈ dom v, ∀ c ∈ dom v, antisymmetrize33 r [i, j, k, a, b, c] = 0) ↔
    ∀ (A : Type) [Ring A] [Algebra S A] (N : List (SQType × Ω) → A), SwapsSign N → keyOperator dom N key r = 0 := by
  rw [← C81_zero_iff dom (n := 3) (m := 3) hu hl r]
  constructor
  · intro h x hx
    rw [hu, hl] at hx
    have hlen : x.length = 6 := by simpa using hx.length_eq
    rw [← C81_three_three _ hlen]
    match x, hlen, hx with
    | [i, j, k, a, b, c], _, .cons hi (.cons hj (.cons hk (.cons ha (.cons hb (.cons hc _))))) => exact h i hi j hj k hk a ha b hb c hc
  · intro h i hi j hj k hk a ha b hb c hc
    rw [C81_three_three _ rfl]
    apply h
    rw [hu, hl]
    exact .cons hi (.cons hj (.cons hk (.cons ha (.cons hb (.cons hc .nil)))))

/-! ## the products of second-quantized operators -/

omit [Inhabited Ω] [DecidableEq Ω] in
theorem normalSign_prefix (hole : Ω → Bool) (xs : List (SQType × Ω)) {w w' : List (SQType × Ω)} {ε : Int}
    (hc : w.countP (fun n => !kills hole n) = w'.countP (fun n => !kills hole n)) (h : normalSign hole w = ε * normalSign hole w') :
    normalSign hole (xs ++ w) = ε * normalSign hole (xs ++ w') := by
  induction xs with
  | nil => exact h
  | cons m xs ih =>
    simp only [List.cons_append, normalSign, List.countP_append, hc, ih]
    ring

/-- **C81.** In an algebra with the canonical anticommutation relations, operators of the same kind anticommute in the ordinary product ... -/
theorem C81_ordinary_product [Ring A] {op : SQType → Ω → A} (h : IsCAR op) : SwapsSign (fun w => (w.map (fun m => op m.1 m.2)).prod) := by
  intro xs ty a b ys
  simp only [List.map_append, List.map_cons, List.prod_append, List.prod_cons]
  rw [← mul_assoc (op ty a), h.same, ← mul_assoc (op ty b)]
  simp

/-- **C81.** ... and in the normal product. -/
theorem C81_normal_product [Ring A] {op : SQType → Ω → A} (h : IsCAR op) (hole : Ω → Bool) : SwapsSign (normalProd hole op) := by
  intro xs ty a b ys
  have hc : ((ty, a) :: (ty, b) :: ys).countP (fun n => !kills hole n) = ((ty, b) :: (ty, a) :: ys).countP (fun n => !kills hole n) := by
    simp only [List.countP_cons]; omega
  have hsame : ∀ xs ys : List (SQType × Ω), ((xs ++ (ty, a) :: (ty, b) :: ys).map (fun m => op m.1 m.2)).prod = - ((xs ++ (ty, b) :: (ty, a) :: ys).map (fun m => op m.1 m.2)).prod :=
    fun xs ys => C81_ordinary_product h xs ty a b ys
  unfold normalProd
  cases ha : kills hole (ty, a) <;> cases hb : kills hole (ty, b)
  · rw [normalSign_prefix hole xs (ε := 1) hc (by simp [normalSign, ha, hb])]
    simp only [List.filter_append, List.filter_cons, ha, hb, Bool.not_false, if_true, Bool.false_eq_true, if_false]
    rw [hsame]
    simp
  · rw [normalSign_prefix hole xs (ε := -1) hc (by simp [normalSign, ha, hb, List.countP_cons, pow_succ])]
    simp only [List.filter_append, List.filter_cons, ha, hb, Bool.not_false, Bool.not_true, if_true, Bool.false_eq_true, if_false]
    simp
  · rw [normalSign_prefix hole xs (ε := -1) hc (by simp [normalSign, ha, hb, List.countP_cons, pow_succ])]
    simp only [List.filter_append, List.filter_cons, ha, hb, Bool.not_false, Bool.not_true, if_true, Bool.false_eq_true, if_false]
    simp
  · rw [normalSign_prefix hole xs (ε := 1) hc (by simp [normalSign, ha, hb, List.countP_cons])]
    simp only [List.filter_append, List.filter_cons, ha, hb, Bool.not_true, if_true, Bool.false_eq_true, if_false]
    rw [hsame]
    simp

-- the hypotheses hold for the Jordan-Wigner matrices and the key `oo|vv`; the antisymmetrised array is not zero
example : SwapsSign (normalProd id Wick.jwOp) ∧ keyUpper "oo|vv".toList = ['o', 'o'] ∧ keyLower "oo|vv".toList = ['v', 'v'] ∧
    keyUpper "ooO|Vvv".toList = ['o', 'o', 'O'] ∧ keyLower "ooO|Vvv".toList = ['v', 'v', 'V'] ∧
    antisymmetrize22 (fun x : List Nat => if x = [0, 1, 2, 3] then (1 : ℚ) else 0) [1, 0, 2, 3] = -1 :=
  ⟨C81_normal_product Wick.jw_car id, by decide, by decide, by decide, by decide, by
    simp [antisymmetrize22, runTranspose, antisym22Lines, einsumTranspose]⟩

end
end Wicked
