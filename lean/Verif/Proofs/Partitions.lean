import Verif.Model.Combinatorics
import Verif.Spec.Combinatorics
import Mathlib.Data.List.Lex
import Mathlib.Data.List.Induction
import Mathlib.Tactic.Ring
import Mathlib.Tactic.Linarith
import Mathlib.Algebra.BigOperators.Group.List.Basic
import Mathlib.Algebra.Order.BigOperators.Group.List
/-! # The ZS2 algorithm enumerates partitions in lexicographic order -/
namespace Wicked
open List

/-! ### Array access -/

theorem rd_append {A B : List Int} {a i : Int} (h : i = A.length) : rd (A ++ a :: B) i = .ok a := by
  unfold rd
  rw [if_pos (by omega)]
  have : i.toNat = A.length := by omega
  rw [this]
  simp

theorem wr_append {A B : List Int} {a b i : Int} (h : i = A.length) :
    wr (A ++ a :: B) i b = .ok (A ++ b :: B) := by
  unfold wr
  have : i.toNat = A.length := by omega
  rw [this, if_pos ⟨by omega, by simp⟩]
  simp

theorem zsScan_run (A : List Int) (v : Int) (B : List Int) (w : Int) (A0 : List Int) (hA : A = A0 ++ [w])
    (hw : w ≠ v) : ∀ (k fuel i : Nat) (m j : Int), k < fuel → j = A.length + k - 1 → m = A.length + k + i + 1 →
    zsScan fuel (A ++ (replicate k v ++ (replicate i 1 ++ v :: B))) m j =
      .ok (A ++ (replicate (k + i) 1 ++ v :: B), (A.length : Int) - 1) := by
  intro k
  induction k with
  | zero =>
    intro fuel i m j hf hj hm
    obtain ⟨fuel, rfl⟩ : ∃ f, fuel = f + 1 := ⟨fuel - 1, by omega⟩
    unfold zsScan
    have e1 : rd (A ++ (replicate 0 v ++ (replicate i 1 ++ v :: B))) j = .ok w := by
      rw [hA]; simp only [replicate_zero, nil_append, append_assoc, singleton_append]
      apply rd_append; rw [hj, hA]; simp
    have e2 : rd (A ++ (replicate 0 v ++ (replicate i 1 ++ v :: B))) (m - 1) = .ok v := by
      simp only [replicate_zero, nil_append]
      rw [← append_assoc]
      apply rd_append; rw [hm]; simp <;> omega
    simp only [e1, e2, bind, Except.bind, beq_iff_eq, hw, if_false]
    simp [pure, Except.pure]
    omega
  | succ k ih =>
    intro fuel i m j hf hj hm
    obtain ⟨fuel, rfl⟩ : ∃ f, fuel = f + 1 := ⟨fuel - 1, by omega⟩
    unfold zsScan
    have e0 : A ++ (replicate (k + 1) v ++ (replicate i 1 ++ v :: B)) =
        (A ++ replicate k v) ++ v :: (replicate i 1 ++ v :: B) := by
      rw [replicate_succ']; simp
    have e1 : rd (A ++ (replicate (k + 1) v ++ (replicate i 1 ++ v :: B))) j = .ok v := by
      rw [e0]; apply rd_append; rw [hj]; simp <;> omega
    have e2 : rd (A ++ (replicate (k + 1) v ++ (replicate i 1 ++ v :: B))) (m - 1) = .ok v := by
      have : A ++ (replicate (k + 1) v ++ (replicate i 1 ++ v :: B)) =
        (A ++ (replicate (k + 1) v ++ replicate i 1)) ++ v :: B := by simp
      rw [this]; apply rd_append; rw [hm]; simp <;> omega
    have e3 : wr (A ++ (replicate (k + 1) v ++ (replicate i 1 ++ v :: B))) j 1 =
        .ok (A ++ (replicate k v ++ (replicate (i + 1) 1 ++ v :: B))) := by
      rw [e0, wr_append (by rw [hj]; simp <;> omega)]
      simp [replicate_succ]
    simp only [e1, e2, e3, bind, Except.bind, beq_self_eq_true, if_true]
    rw [ih fuel (i + 1) m (j - 1) (by omega) (by rw [hj]; push_cast; omega) (by rw [hm]; push_cast; omega)]
    have : k + (i + 1) = k + 1 + i := by omega
    rw [this]

/-- second branch of the step on an explicit array: `1 :: q0 ++ v^c ++ t :: R` -/
theorem zsStep_branch2 (q0 : List Int) (v t : Int) (c : Nat) (R : List Int) (h m : Int)
    (hlast : ∀ A0 w, (1 : Int) :: q0 = A0 ++ [w] → w ≠ v)
    (hm : m = (q0.length : Int) + (c + 1) + 1) (hh : ¬ m - h > 1) :
    zsStep ((1 :: q0) ++ (replicate c v ++ v :: t :: R)) h m =
      .ok ((1 :: q0) ++ (v + 1) :: (replicate (c + 1) 1 ++ R), (q0.length : Int) + 1,
        (q0.length : Int) + 1 + (t + v * c) - 1) := by
  unfold zsStep
  rw [if_neg hh]
  obtain ⟨A0, w, hA⟩ : ∃ A0 w, (1 : Int) :: q0 = A0 ++ [w] :=
    ⟨_, _, (List.dropLast_append_getLast (by simp)).symm⟩
  have hscan := zsScan_run (1 :: q0) v (t :: R) w A0 hA (hlast _ _ hA) c
    (((1 :: q0) ++ (replicate c v ++ v :: t :: R)).length + 1) 0 m (m - 2) (by simp <;> omega)
    (by rw [hm]; simp <;> omega) (by rw [hm]; simp <;> omega)
  simp only [replicate_zero, nil_append, Nat.add_zero] at hscan
  rw [hscan]
  simp only [bind, Except.bind]
  have hh' : (((1 :: q0 : List Int).length : Nat) : Int) - 1 + 1 = ((1 :: q0 : List Int)).length := by omega
  simp only [hh']
  cases c with
  | zero =>
    simp only [replicate_zero, nil_append]
    rw [rd_append (A := 1 :: q0) (by rw [hm]; simp <;> omega)]
    simp only
    rw [wr_append (A := 1 :: q0) (by simp)]
    simp only
    have e : (1 :: q0) ++ (v + 1) :: t :: R = ((1 :: q0) ++ [v + 1]) ++ t :: R := by simp
    have r1 : rd ((1 :: q0) ++ (v + 1) :: t :: R) m = .ok t := by
      rw [e]; exact rd_append (by rw [hm]; simp <;> omega)
    have r2 : rd ((1 :: q0) ++ (v + 1) :: t :: R) (m - 1) = .ok (v + 1) :=
      rd_append (by rw [hm]; simp <;> omega)
    have r3 : wr ((1 :: q0) ++ (v + 1) :: t :: R) m 1 = .ok (((1 :: q0) ++ [v + 1]) ++ 1 :: R) := by
      rw [e]; exact wr_append (by rw [hm]; simp <;> omega)
    simp only [r1, r2, r3]
    rw [if_neg (by rw [hm]; simp)]
    simp only [pure, Except.pure, hm]
    simp
  | succ c =>
    have e : (1 :: q0) ++ (replicate (c + 1) 1 ++ v :: t :: R) =
      ((1 :: q0) ++ replicate (c + 1) 1) ++ v :: t :: R := by simp
    rw [e, rd_append (by rw [hm]; simp <;> omega)]
    simp only
    have e2 : ((1 :: q0) ++ replicate (c + 1) 1) ++ v :: t :: R =
      (1 :: q0) ++ 1 :: (replicate c 1 ++ v :: t :: R) := by simp [replicate_succ]
    rw [e2, wr_append (A := 1 :: q0) (by simp)]
    simp only
    have e3 : (1 :: q0) ++ (v + 1) :: (replicate c 1 ++ v :: t :: R) =
      ((1 :: q0) ++ (v + 1) :: replicate c 1) ++ v :: t :: R := by simp
    have e4 : (1 :: q0) ++ (v + 1) :: (replicate c 1 ++ v :: t :: R) =
      ((1 :: q0) ++ (v + 1) :: (replicate c 1 ++ [v])) ++ t :: R := by simp
    rw [e4, rd_append (by rw [hm]; simp <;> omega)]
    simp only
    rw [← e4, e3, rd_append (by rw [hm]; simp <;> omega), ← e3, e4, wr_append (by rw [hm]; simp <;> omega)]
    simp only
    rw [if_pos (by rw [hm]; simp <;> omega)]
    have e5 : ((1 :: q0) ++ (v + 1) :: (replicate c 1 ++ [v])) ++ 1 :: R =
      ((1 :: q0) ++ (v + 1) :: replicate c 1) ++ v :: 1 :: R := by simp
    rw [e5, wr_append (by rw [hm]; simp <;> omega)]
    simp only [pure, Except.pure, hm]
    have e6 : replicate (c + 1 + 1) (1 : Int) ++ R = replicate c 1 ++ 1 :: 1 :: R := by
      rw [replicate_succ', replicate_succ']; simp
    rw [e6]
    simp only [length_cons, Except.ok.injEq, Prod.mk.injEq, append_assoc, cons_append, true_and]
    refine ⟨by push_cast; ring, ?_⟩
    push_cast; ring

/-! ### Lexicographic successor of a partition -/

/-- `p'` is obtained from `p = A v^c t` (`A` ends in something bigger than `v`) as `A (v+1) 1^r`. -/
structure Succ (p p' : List Int) where
  A : List Int
  v : Int
  t : Int
  c : Nat
  r : Nat
  hp : p = A ++ (replicate c v ++ v :: t :: [])
  hp' : p' = A ++ (v + 1) :: replicate r 1
  hA : ∀ A0 w, A = A0 ++ [w] → v < w
  hsum : p'.sum = p.sum

theorem Succ.isPartition {n : Int} {p p' : List Int} (s : Succ p p') (hp : IsPartition n p) :
    IsPartition n p' := by
  obtain ⟨A, v, t, c, r, hp1, hp2, hA, hsum⟩ := s
  obtain ⟨h1, h2, h3⟩ := hp
  have hv : 1 ≤ v := h2 v (by rw [hp1]; simp)
  have hAp : A.Pairwise (· ≥ ·) := by rw [hp1, pairwise_append] at h1; exact h1.1
  refine ⟨?_, ?_, by rw [hsum, h3]⟩
  · rw [hp2, pairwise_append, pairwise_cons]
    have hAv : ∀ a ∈ A, v + 1 ≤ a := by
      intro a ha
      have hne : A ≠ [] := by rintro rfl; simp at ha
      have hd := List.dropLast_append_getLast hne
      have hw := hA _ _ hd.symm
      rw [← hd] at hAp ha
      rw [pairwise_append] at hAp
      rw [mem_append] at ha
      rcases ha with ha | ha
      · have := hAp.2.2 a ha (A.getLast hne) (by simp); omega
      · simp at ha; omega
    refine ⟨hAp, ⟨?_, ?_⟩, ?_⟩
    · intro b hb; have := eq_of_mem_replicate hb; omega
    · rw [pairwise_replicate]; simp
    · intro a ha b hb
      have := hAv a ha
      rw [mem_cons] at hb
      rcases hb with rfl | hb
      · exact this
      · have := eq_of_mem_replicate hb; omega
  · intro a ha
    rw [hp2] at ha
    simp only [mem_append, mem_cons] at ha
    rcases ha with ha | rfl | ha
    · exact h2 a (by rw [hp1]; simp [ha])
    · omega
    · have := eq_of_mem_replicate ha; omega

theorem Succ.lt {p p' : List Int} (s : Succ p p') : p < p' := by
  obtain ⟨A, v, t, c, r, hp1, hp2, hA, hsum⟩ := s
  rw [hp1, hp2]
  have : ∀ (A X Y : List Int), X < Y → A ++ X < A ++ Y := by
    intro A X Y h
    induction A with
    | nil => exact h
    | cons a A ih => exact List.Lex.cons ih
  apply this
  cases c with
  | zero => exact List.Lex.rel (by omega)
  | succ c => rw [replicate_succ]; exact List.Lex.rel (by omega)


theorem consLe {a b : Int} {l l' : List Int} (h : a < b ∨ a = b ∧ l ≤ l') : a :: l ≤ b :: l' := by
  rcases h with h | ⟨rfl, h⟩
  · exact le_of_lt (List.cons_lt_cons_iff.mpr (Or.inl h))
  · rcases eq_or_lt_of_le h with h | h
    · rw [h]
    · exact le_of_lt (List.cons_lt_cons_iff.mpr (Or.inr ⟨rfl, h⟩))

theorem ones_min : ∀ (r : Nat) (P : List Int), (∀ a ∈ P, 1 ≤ a) → P.sum = r → replicate r 1 ≤ P := by
  intro r
  induction r with
  | zero =>
    intro P _ _
    cases P with
    | nil => exact le_refl _
    | cons x P => exact le_of_lt List.Lex.nil
  | succ r ih =>
    intro P hpos hsum
    cases P with
    | nil => simp at hsum; omega
    | cons x P =>
      rw [replicate_succ]
      have hx := hpos x (by simp)
      rcases lt_or_eq_of_le hx with h | h
      · exact le_of_lt (List.Lex.rel h)
      · subst h
        apply consLe
        right
        refine ⟨rfl, ih P (fun a ha => hpos a (by simp [ha])) ?_⟩
        simp at hsum; omega

theorem sum_pos_of {P : List Int} (hpos : ∀ a ∈ P, 1 ≤ a) : 0 ≤ P.sum ∧ (P ≠ [] → 1 ≤ P.sum) := by
  induction P with
  | nil => simp
  | cons x P ih =>
    have h1 := hpos x (by simp)
    have h2 := (ih (fun a ha => hpos a (by simp [ha]))).1
    simp only [sum_cons]
    exact ⟨by omega, fun _ => by omega⟩

theorem no_between (v t : Int) : ∀ (c : Nat) (P : List Int), (∀ a ∈ P, 1 ≤ a) → (∀ a ∈ P, a ≤ v) →
    P.sum = (replicate c v ++ [t]).sum → ¬ (replicate c v ++ [t] < P) := by
  intro c
  induction c with
  | zero =>
    intro P hpos hle hsum hlt
    cases P with
    | nil => simp at hlt
    | cons x P =>
      simp only [replicate_zero, nil_append] at hlt hsum
      rw [List.cons_lt_cons_iff] at hlt
      have hP := sum_pos_of (fun a ha => hpos a (mem_cons_of_mem x ha))
      simp only [sum_cons, sum_nil] at hsum
      rcases hlt with h | ⟨rfl, h⟩
      · omega
      · have : P ≠ [] := by rintro rfl; simp at h
        have := hP.2 this; omega
  | succ c ih =>
    intro P hpos hle hsum hlt
    cases P with
    | nil => simp [replicate_succ] at hlt
    | cons x P =>
      rw [replicate_succ, cons_append] at hlt hsum
      rw [List.cons_lt_cons_iff] at hlt
      have hx := hle x (by simp)
      rcases hlt with h | ⟨rfl, h⟩
      · omega
      · refine ih P (fun a ha => hpos a (mem_cons_of_mem _ ha)) (fun a ha => hle a (mem_cons_of_mem _ ha)) ?_ h
        simp only [sum_cons] at hsum; omega

theorem Succ.least {p p' : List Int} (s : Succ p p') :
    ∀ P : List Int, P.Pairwise (· ≥ ·) → (∀ a ∈ P, 1 ≤ a) → P.sum = p.sum → p < P → p' ≤ P := by
  obtain ⟨A, v, t, c, r, hp1, hp2, -, hsum⟩ := s
  induction A generalizing p p' with
  | nil =>
    intro P hpw hpos hPs hlt
    cases P with
    | nil => simp at hlt
    | cons b P =>
      rw [pairwise_cons] at hpw
      have hp1' : p = v :: (replicate c v ++ [t]) := by
        rw [hp1]
        have : replicate c v ++ v :: t :: [] = (replicate c v ++ [v]) ++ [t] := by simp
        rw [nil_append, this, ← replicate_succ', replicate_succ]; rfl
      rw [hp1', List.cons_lt_cons_iff] at hlt
      have hbv : v < b := by
        rcases hlt with h | ⟨rfl, h⟩
        · exact h
        · exfalso
          refine no_between v t c P (fun a ha => hpos a (mem_cons_of_mem _ ha)) (fun a ha => hpw.1 a ha) ?_ h
          rw [hp1'] at hPs; simp only [sum_cons] at hPs; omega
      rw [hp2, nil_append]
      apply consLe
      rcases lt_or_eq_of_le (show v + 1 ≤ b by omega) with h | h
      · exact Or.inl h
      · refine Or.inr ⟨h, ones_min r P (fun a ha => hpos a (mem_cons_of_mem _ ha)) ?_⟩
        rw [← hsum, hp2] at hPs
        simp at hPs; omega
  | cons a A ih =>
    intro P hpw hpos hPs hlt
    cases P with
    | nil => simp at hlt
    | cons b P =>
      rw [pairwise_cons] at hpw
      rw [hp1, cons_append, List.cons_lt_cons_iff] at hlt
      rw [hp2, cons_append]
      apply consLe
      rcases hlt with h | ⟨rfl, h⟩
      · exact Or.inl h
      · refine Or.inr ⟨rfl, ih rfl rfl ?_ P hpw.2 (fun a ha => hpos a (mem_cons_of_mem _ ha)) ?_ h⟩
        · rw [hp1, hp2] at hsum; simp only [cons_append, sum_cons] at hsum; omega
        · rw [hp1] at hPs; simp only [cons_append, sum_cons] at hPs; omega

/-- numeric code of a composition, decreasing along the enumeration -/
def enc : List Int → Nat
  | [] => 0
  | _ :: t => if t = [] then 0 else 2 ^ t.sum.toNat + enc t

theorem enc_lt {P : List Int} (hpos : ∀ a ∈ P, 1 ≤ a) : enc P < 2 ^ P.sum.toNat := by
  induction P with
  | nil => simp [enc]
  | cons x P ih =>
    have hx := hpos x (by simp)
    have hP := fun a ha => hpos a (mem_cons_of_mem x ha)
    have ih := ih hP
    rw [enc]
    split
    · positivity
    · have h0 := (sum_pos_of hP).1
      calc 2 ^ P.sum.toNat + enc P < 2 ^ P.sum.toNat + 2 ^ P.sum.toNat := by omega
        _ = 2 ^ (P.sum.toNat + 1) := by rw [pow_succ]; omega
        _ ≤ 2 ^ (x :: P).sum.toNat := Nat.pow_le_pow_right (by omega) (by rw [sum_cons]; omega)

theorem Succ.enc_lt {p p' : List Int} (s : Succ p p') : enc p' < enc p := by
  obtain ⟨A, v, t, c, r, hp1, hp2, -, hsum⟩ := s
  induction A generalizing p p' with
  | nil =>
    have hp1' : p = v :: (replicate c v ++ [t]) := by
      rw [hp1]
      have : replicate c v ++ v :: t :: [] = (replicate c v ++ [v]) ++ [t] := by simp
      rw [nil_append, this, ← replicate_succ', replicate_succ]; rfl
    have hs : (replicate c v ++ [t]).sum = r + 1 := by
      rw [hp1', hp2] at hsum; simp at hsum; simp; omega
    rw [hp1', hp2, nil_append, enc, enc, if_neg (c := replicate c v ++ [t] = []) (by simp), hs]
    have h1 : enc (replicate r 1) < 2 ^ (replicate r (1 : Int)).sum.toNat :=
      Wicked.enc_lt (by intro a ha; have := eq_of_mem_replicate ha; omega)
    have h2 : (replicate r (1 : Int)).sum.toNat = r := by simp
    rw [h2] at h1
    have h3 : ((r : Int) + 1).toNat = r + 1 := by omega
    rw [h3, pow_succ, h2]
    have h4 : 0 < 2 ^ r := by positivity
    by_cases hr : replicate r (1 : Int) = []
    · rw [if_pos hr]; omega
    · rw [if_neg hr]; omega
  | cons a A ih =>
    have hsum' : (A ++ (v + 1) :: replicate r 1).sum = (A ++ (replicate c v ++ v :: t :: [])).sum := by
      rw [hp1, hp2] at hsum; simp only [cons_append, sum_cons] at hsum; omega
    have := ih rfl rfl hsum'
    rw [hp1, hp2, cons_append, cons_append, enc, enc, if_neg (by simp), if_neg (by simp), hsum']
    omega

/-! ### The state of the algorithm -/

/-- parts `≥ 2` of the current partition -/
structure QInv (N : Nat) (q : List Int) : Prop where
  ne : q ≠ []
  pw : q.Pairwise (· ≥ ·)
  two : ∀ a ∈ q, 2 ≤ a
  sum : q.sum ≤ N

def zsArr (N : Nat) (q : List Int) : List Int := 1 :: (q ++ replicate (N - q.length) 1)
def zsM (N : Nat) (q : List Int) : Int := q.length + (N - q.sum)
def zsP (N : Nat) (q : List Int) : List Int := q ++ replicate ((N : Int) - q.sum).toNat 1

theorem two_mul_length_le {q : List Int} (h : ∀ a ∈ q, 2 ≤ a) : 2 * (q.length : Int) ≤ q.sum := by
  induction q with
  | nil => simp
  | cons a q ih =>
    have := h a (by simp)
    have := ih (fun b hb => h b (by simp [hb]))
    simp only [length_cons, sum_cons]; push_cast; omega

theorem QInv.isPartition {N : Nat} {q : List Int} (h : QInv N q) : IsPartition N (zsP N q) := by
  unfold zsP
  refine ⟨?_, ?_, ?_⟩
  · rw [pairwise_append]
    refine ⟨h.pw, ?_, ?_⟩
    · rw [pairwise_replicate]; simp
    · intro a ha b hb; have := eq_of_mem_replicate hb; have := h.two a ha; omega
  · intro a ha; rw [mem_append] at ha
    rcases ha with ha | ha
    · have := h.two a ha; omega
    · have := eq_of_mem_replicate ha; omega
  · have := h.sum; simp; omega

theorem exists_run (l : List Int) (h : l ≠ []) : ∃ q0 v c, l = q0 ++ replicate (c + 1) v ∧
    ∀ A0 w, q0 = A0 ++ [w] → w ≠ v := by
  induction l using List.reverseRecOn with
  | nil => exact absurd rfl h
  | append_singleton l a ih =>
    by_cases hl : l = []
    · subst hl; exact ⟨[], a, 0, by simp, by simp⟩
    · obtain ⟨q0, v, c, e, hq⟩ := ih hl
      by_cases hav : a = v
      · subst hav
        refine ⟨q0, a, c + 1, ?_, hq⟩
        rw [e, replicate_succ' (n := c + 1), append_assoc]
      · refine ⟨l, a, 0, by simp, ?_⟩
        intro A0 w hw
        rw [e, replicate_succ', ← append_assoc] at hw
        have := (append_inj' hw rfl).2
        simp at this
        omega

theorem zsStep_branch2_q (N : Nat) (q0 : List Int) (v t : Int) (c : Nat) (q : List Int)
    (hpart : IsPartition N (q0 ++ (replicate (c + 1) v ++ [t]))) (hv : 2 ≤ v)
    (hq2 : ∀ a ∈ q0, 2 ≤ a)
    (hlast : ∀ A0 w, q0 = A0 ++ [w] → w ≠ v)
    (harr : zsArr N q = 1 :: (q0 ++ (replicate (c + 1) v ++ t :: replicate (N - (q0.length + c + 2)) 1)))
    (hlen : q0.length + c + 2 ≤ N)
    (hm : zsM N q = q0.length + c + 2) (hh : ¬ zsM N q - q.length > 1) :
    ∃ q', QInv N q' ∧ zsStep (zsArr N q) q.length (zsM N q) = .ok (zsArr N q', q'.length, zsM N q') ∧
      Nonempty (Succ (q0 ++ (replicate (c + 1) v ++ [t])) (zsP N q')) := by
  obtain ⟨h1, h2, h3⟩ := hpart
  have hsum : q0.sum + (c * v + v + t) = N := by
    rw [← h3]; simp; ring
  have ht : 1 ≤ t := h2 t (by simp)
  have hcv : 0 ≤ (c : Int) * v := by positivity
  have hgt : ∀ A0 w, q0 = A0 ++ [w] → v < w := by
    intro A0 w hw
    have h4 := hlast A0 w hw
    rw [pairwise_append] at h1
    have := h1.2.2 w (by rw [hw]; simp) v (by simp)
    omega
  have hqv : ∀ a ∈ q0, v + 1 ≤ a := by
    intro a ha
    have hne : q0 ≠ [] := by rintro rfl; simp at ha
    have hd := List.dropLast_append_getLast hne
    have hw := hgt _ _ hd.symm
    rw [pairwise_append] at h1
    have hAp := h1.1
    rw [← hd] at hAp ha
    rw [pairwise_append] at hAp
    rw [mem_append] at ha
    rcases ha with ha | ha
    · have := hAp.2.2 a ha (q0.getLast hne) (by simp); omega
    · simp at ha; omega
  refine ⟨q0 ++ [v + 1], ?_, ?_, ?_⟩
  · refine ⟨by simp, ?_, ?_, ?_⟩
    · rw [pairwise_append]
      refine ⟨(pairwise_append.mp h1).1, by simp, ?_⟩
      intro a ha b hb; simp at hb; subst hb; exact hqv a ha
    · intro a ha; simp at ha; rcases ha with ha | rfl
      · exact hq2 a ha
      · omega
    · simp; omega
  · have := zsStep_branch2 q0 v t c (replicate (N - (q0.length + c + 2)) 1) q.length (zsM N q)
      (by
        intro A0 w hw
        cases A0 with
        | nil => simp at hw; omega
        | cons x A0 => simp at hw; exact hlast A0 w hw.2)
      (by rw [hm]; omega) hh
    have e : (1 :: q0) ++ (replicate c v ++ v :: t :: replicate (N - (q0.length + c + 2)) 1) = zsArr N q := by
      rw [harr, replicate_succ']; simp
    rw [e] at this
    rw [this]
    have e2 : (1 :: q0) ++ (v + 1) :: (replicate (c + 1) 1 ++ replicate (N - (q0.length + c + 2)) 1) =
        zsArr N (q0 ++ [v + 1]) := by
      unfold zsArr
      rw [← replicate_add]
      have : c + 1 + (N - (q0.length + c + 2)) = N - (q0 ++ [v + 1]).length := by simp; omega
      rw [this]; simp
    rw [e2]
    congr 2
    rw [Prod.mk.injEq]
    constructor
    · simp
    · unfold zsM
      simp
      have : (c : Int) * v = v * c := by ring
      omega
  · refine ⟨⟨q0, v, t, c, ((N : Int) - (q0 ++ [v + 1]).sum).toNat, ?_, ?_, hgt, ?_⟩⟩
    · rw [replicate_succ']; simp
    · unfold zsP; simp
    · rw [h3]
      unfold zsP
      simp
      omega

theorem zsStep_spec (N : Nat) (q : List Int) (h : QInv N q) (hN : q ≠ [(N : Int)]) :
    ∃ q', QInv N q' ∧ zsStep (zsArr N q) q.length (zsM N q) = .ok (zsArr N q', q'.length, zsM N q') ∧
      Nonempty (Succ (zsP N q) (zsP N q')) := by
  have hl := two_mul_length_le h.two
  have hs := h.sum
  by_cases hb : zsM N q - q.length > 1
  · -- append a 2
    have hsum2 : q.sum + 2 ≤ N := by unfold zsM at hb; omega
    refine ⟨q ++ [2], ⟨by simp, ?_, ?_, by simp; omega⟩, ?_, ?_⟩
    · rw [pairwise_append]
      refine ⟨h.pw, by simp, ?_⟩
      intro a ha b hb; simp at hb; subst hb; exact h.two a ha
    · intro a ha; simp at ha; rcases ha with ha | rfl
      · exact h.two a ha
      · omega
    · unfold zsStep
      rw [if_pos hb]
      have e : zsArr N q = (1 :: q) ++ 1 :: replicate (N - q.length - 1) 1 := by
        unfold zsArr
        have : N - q.length = (N - q.length - 1) + 1 := by omega
        rw [this, replicate_succ]; simp
      have w : wr (zsArr N q) ((q.length : Int) + 1) 2 = .ok ((1 :: q) ++ 2 :: replicate (N - q.length - 1) 1) := by
        rw [e]; exact wr_append (by simp)
      simp only [w, bind, Except.bind, pure, Except.pure]
      unfold zsM zsArr
      simp only [length_append, length_singleton, sum_append, sum_singleton, Except.ok.injEq, Prod.mk.injEq]
      refine ⟨?_, by push_cast; rfl, by push_cast; omega⟩
      have : N - (q.length + 1) = N - q.length - 1 := by omega
      rw [this]; simp
    · refine ⟨⟨q, 1, 1, ((N : Int) - q.sum).toNat - 2, ((N : Int) - q.sum).toNat - 2, ?_, ?_, ?_, ?_⟩⟩
      · unfold zsP
        have : ((N : Int) - q.sum).toNat = (((N : Int) - q.sum).toNat - 2) + 1 + 1 := by omega
        rw [this, replicate_succ', replicate_succ']; simp
      · unfold zsP
        have : ((N : Int) - (q ++ [2]).sum).toNat = ((N : Int) - q.sum).toNat - 2 := by simp; omega
        rw [this]; simp
      · intro A0 w hw; have := h.two w (by rw [hw]; simp); omega
      · unfold zsP; simp; omega
  · have hcase : q.sum = N ∨ q.sum + 1 = N := by unfold zsM at hb; omega
    have hpart := h.isPartition
    rcases hcase with hc | hc
    · -- no ones: the last part moves
      have hP : zsP N q = q := by unfold zsP; rw [hc]; simp
      obtain ⟨q1, t, hq1⟩ : ∃ q1 t, q = q1 ++ [t] := ⟨_, _, (dropLast_append_getLast h.ne).symm⟩
      have hq1ne : q1 ≠ [] := by
        rintro rfl
        apply hN; rw [hq1] at hc ⊢; simp at hc; simp [hc]
      obtain ⟨q0, v, c, e, hlast⟩ := exists_run q1 hq1ne
      have hq : q = q0 ++ (replicate (c + 1) v ++ [t]) := by rw [hq1, e]; simp
      have hlen : q.length = q0.length + c + 2 := by rw [hq]; simp; omega
      rw [hP]
      have key := zsStep_branch2_q N q0 v t c q (by rw [← hq, ← hP]; exact hpart)
        (h.two v (by rw [hq]; simp)) (fun a ha => h.two a (by rw [hq]; simp [ha])) hlast
        (by unfold zsArr; rw [hlen]; conv => lhs; rw [hq]
            simp) (by omega) (by unfold zsM; rw [hlen, hc]; push_cast; omega) hb
      rw [← hq] at key
      exact key
    · -- one trailing one
      have hP : zsP N q = q ++ [1] := by
        unfold zsP
        have : ((N : Int) - q.sum).toNat = 1 := by omega
        rw [this]; rfl
      obtain ⟨q0, v, c, hq, hlast⟩ := exists_run q h.ne
      have hlen : q.length = q0.length + c + 1 := by rw [hq]; simp; omega
      rw [hP]
      have hq' : q ++ [1] = q0 ++ (replicate (c + 1) v ++ [1]) := by rw [hq]; simp
      have key := zsStep_branch2_q N q0 v 1 c q (by rw [← hq', ← hP]; exact hpart)
        (h.two v (by rw [hq]; simp)) (fun a ha => h.two a (by rw [hq]; simp [ha])) hlast
        (by unfold zsArr
            have : N - q.length = (N - (q0.length + c + 2)) + 1 := by omega
            rw [this, replicate_succ]; conv => lhs; rw [hq]
            simp) (by omega) (by unfold zsM; rw [hlen]; push_cast; omega) hb
      rw [← hq'] at key
      exact key

theorem slice1_arr (N : Nat) (q : List Int) (h : QInv N q) : slice1 (zsArr N q) (zsM N q) = .ok (zsP N q) := by
  have hl := two_mul_length_le h.two
  have hs := h.sum
  unfold slice1 zsArr zsM zsP
  rw [if_pos]
  · congr 1
    simp only [drop_succ_cons, drop_zero]
    have : ((q.length : Int) + (N - q.sum)).toNat = q.length + ((N : Int) - q.sum).toNat := by omega
    rw [this, take_append, take_of_length_le (by omega)]
    congr 1
    rw [take_replicate]
    congr 1
    omega
  · constructor
    · omega
    · simp; omega

theorem pushPart_spec (N : Nat) (q : List Int) (h : QInv N q) (maxlen : Int) (out : List (List Int)) :
    pushPart (zsArr N q) (zsM N q) maxlen out =
      .ok (out ++ [zsP N q].filter (fun p => decide ((p.length : Int) ≤ maxlen))) := by
  have hs := h.sum
  have hm : ((zsP N q).length : Int) = zsM N q := by unfold zsP zsM; simp; omega
  unfold pushPart
  by_cases hc : zsM N q ≤ maxlen
  · rw [if_pos hc, slice1_arr N q h]
    simp [bind, Except.bind, pure, Except.pure, hm, hc]
  · rw [if_neg hc]
    simp [pure, Except.pure, hm, hc]

theorem not_lt_single {N : Nat} {P : List Int} (h : IsPartition N P) : ¬ ([(N : Int)] < P) := by
  obtain ⟨_, hpos, hs⟩ := h
  intro hlt
  have hP := sum_pos_of hpos
  cases P with
  | nil => simp at hlt
  | cons x P =>
    rw [List.cons_lt_cons_iff] at hlt
    have h1 := sum_pos_of (fun a ha => hpos a (mem_cons_of_mem x ha))
    simp only [sum_cons] at hs
    rcases hlt with h | ⟨rfl, h⟩
    · omega
    · have : P ≠ [] := by rintro rfl; simp at h
      have := h1.2 this; omega

theorem zsLoop_spec (N : Nat) (maxlen : Int) : ∀ (fuel : Nat) (q : List Int) (out : List (List Int)),
    QInv N q → enc (zsP N q) < fuel →
    ∃ L : List (List Int), L.Pairwise (· < ·) ∧ (∀ P, P ∈ L ↔ IsPartition N P ∧ zsP N q < P) ∧
      zsLoop fuel N maxlen (zsArr N q) q.length (zsM N q) out =
        .ok (out ++ L.filter (fun p => decide ((p.length : Int) ≤ maxlen))) := by
  intro fuel
  induction fuel with
  | zero => intro q out _ h; omega
  | succ fuel ih =>
    intro q out hq hf
    unfold zsLoop
    obtain ⟨x, q1, hx⟩ : ∃ x q1, q = x :: q1 := by
      cases hqq : q with
      | nil => exact absurd hqq hq.ne
      | cons x q1 => exact ⟨x, q1, rfl⟩
    have e1 : rd (zsArr N q) 1 = .ok x := by
      unfold zsArr; rw [hx]
      exact rd_append (A := [1]) (by simp)
    rw [e1]
    simp only [bind, Except.bind]
    by_cases hxN : x = N
    · -- finished
      have hq1 : q = [(N : Int)] := by
        have hs := hq.sum
        rw [hx, sum_cons] at hs
        cases q1 with
        | nil => rw [hx, hxN]
        | cons y q2 =>
          have hpos : ∀ a ∈ (y :: q2), 1 ≤ a := by
            intro a ha; have := hq.two a (by rw [hx]; exact mem_cons_of_mem _ ha); omega
          have := (sum_pos_of hpos).2 (by simp)
          omega
      have hP : zsP N q = [(N : Int)] := by unfold zsP; rw [hq1]; simp
      refine ⟨[], by simp, ?_, ?_⟩
      · intro P; rw [hP]
        simp only [not_mem_nil, false_iff, not_and]
        intro h; exact not_lt_single h
      · simp [hxN, pure, Except.pure]
    · have hqN : q ≠ [(N : Int)] := by rintro e; rw [hx] at e; simp at e; exact hxN e.1
      obtain ⟨q', hq', hstep, ⟨hsucc⟩⟩ := zsStep_spec N q hq hqN
      have hbne : (x != (N : Int)) = true := by simpa using hxN
      simp only [hbne, if_true]
      rw [hstep]
      simp only
      rw [pushPart_spec N q' hq']
      simp only
      obtain ⟨L, hL1, hL2, hL3⟩ := ih q' (out ++ [zsP N q'].filter (fun p => decide ((p.length : Int) ≤ maxlen)))
        hq' (by have := hsucc.enc_lt; omega)
      refine ⟨zsP N q' :: L, ?_, ?_, ?_⟩
      · rw [pairwise_cons]
        exact ⟨fun P hP => ((hL2 P).mp hP).2, hL1⟩
      · intro P
        rw [mem_cons, hL2]
        constructor
        · rintro (rfl | ⟨h1, h2⟩)
          · exact ⟨hq'.isPartition, hsucc.lt⟩
          · exact ⟨h1, lt_trans hsucc.lt h2⟩
        · rintro ⟨h1, h2⟩
          have hle := hsucc.least P h1.1 h1.2.1 (by rw [h1.2.2, hq.isPartition.2.2]) h2
          rcases eq_or_lt_of_le hle with h | h
          · exact Or.inl h.symm
          · exact Or.inr ⟨h1, h⟩
      · rw [hL3]
        congr 1
        rw [append_assoc, ← filter_append]
        rfl

theorem integerPartitions_spec (n maxlen : Int) (hn : 1 < n) :
    ∃ L : List (List Int), L.Pairwise (· < ·) ∧ (∀ P, P ∈ L ↔ IsPartition n P) ∧
      integerPartitions n maxlen = .ok (L.filter (fun p => decide ((p.length : Int) ≤ maxlen))) := by
  obtain ⟨N, rfl⟩ : ∃ N : Nat, n = N := ⟨n.toNat, by omega⟩
  have hN : 2 ≤ N := by omega
  have hq : QInv N [2] := ⟨by simp, by simp, by simp, by simp; omega⟩
  have hP2 : zsP N [2] = 2 :: replicate (N - 2) 1 := by
    unfold zsP
    have : ((N : Int) - [2].sum).toNat = N - 2 := by simp; omega
    rw [this]; rfl
  have hones : IsPartition N (replicate N 1) := by
    refine ⟨by rw [pairwise_replicate]; simp, ?_, by simp⟩
    intro a ha; have := eq_of_mem_replicate ha; omega
  have hsucc : Succ (replicate N 1) (zsP N [2]) := by
    refine ⟨[], 1, 1, N - 2, N - 2, ?_, ?_, by simp, ?_⟩
    · have : N = (N - 2) + 1 + 1 := by omega
      rw [this, replicate_succ', replicate_succ']
      simp
    · rw [hP2]; rfl
    · rw [hP2]; simp; omega
  have hfuel : enc (zsP N [2]) < 2 ^ ((N : Int)).toNat := by
    have h1 := Wicked.enc_lt hq.isPartition.2.1
    rw [hq.isPartition.2.2] at h1
    exact h1
  have hrep : List.replicate ((N : Int) + 1).toNat (1 : Int) = 1 :: 1 :: replicate (N - 1) 1 := by
    have : ((N : Int) + 1).toNat = (N - 1) + 1 + 1 := by omega
    rw [this]; rfl
  have harr : zsArr N [2] = 1 :: 2 :: replicate (N - 1) 1 := by unfold zsArr; simp
  have hM : (N : Int) - 1 = zsM N [2] := by unfold zsM; simp; omega
  have hs1 : slice1 (1 :: 1 :: replicate (N - 1) 1) N = .ok (replicate N 1) := by
    unfold slice1
    rw [if_pos ⟨by omega, by simp; omega⟩]
    congr 1
    have : 1 :: replicate (N - 1) (1 : Int) = replicate N 1 := by
      rw [← replicate_succ]; congr 1; omega
    simp only [drop_succ_cons, drop_zero, this]
    simp
  obtain ⟨L, hL1, hL2, hL3⟩ := zsLoop_spec N maxlen (2 ^ ((N : Int)).toNat) [2]
    ([replicate N 1].filter (fun p => decide ((p.length : Int) ≤ maxlen)) ++
      [zsP N [2]].filter (fun p => decide ((p.length : Int) ≤ maxlen))) hq hfuel
  refine ⟨replicate N 1 :: zsP N [2] :: L, ?_, ?_, ?_⟩
  · rw [pairwise_cons, pairwise_cons]
    refine ⟨?_, fun P hP => ((hL2 P).mp hP).2, hL1⟩
    intro P hP
    rw [mem_cons] at hP
    rcases hP with rfl | hP
    · exact hsucc.lt
    · exact lt_trans hsucc.lt ((hL2 P).mp hP).2
  · intro P
    rw [mem_cons, mem_cons, hL2]
    constructor
    · rintro (rfl | rfl | h)
      · exact hones
      · exact hq.isPartition
      · exact h.1
    · intro h
      have h1 := ones_min N P h.2.1 h.2.2
      rcases eq_or_lt_of_le h1 with h2 | h2
      · exact Or.inl h2.symm
      · have h3 := hsucc.least P h.1 h.2.1 (by rw [h.2.2, hones.2.2]) h2
        rcases eq_or_lt_of_le h3 with h4 | h4
        · exact Or.inr (Or.inl h4.symm)
        · exact Or.inr (Or.inr ⟨h, h4⟩)
  · unfold integerPartitions
    rw [if_pos hn]
    simp only [hrep]
    have w1 : wr (1 :: 1 :: replicate (N - 1) 1) 0 1 = .ok (1 :: 1 :: replicate (N - 1) 1) :=
      wr_append (A := []) (by simp)
    have w2 : wr (1 :: 1 :: replicate (N - 1) 1) 1 2 = .ok (zsArr N [2]) := by
      rw [harr]; exact wr_append (A := [1]) (by simp)
    simp only [length_singleton, Nat.cast_one] at hL3
    have hcat : (replicate N 1 :: zsP N [2] :: L) = ([replicate N 1] ++ [zsP N [2]]) ++ L := rfl
    rw [hcat, filter_append, filter_append, ← hL3]
    by_cases hc : (N : Int) ≤ maxlen
    · simp only [hc, if_true, hs1, bind, Except.bind, pure, Except.pure, w1, w2, hM,
        pushPart_spec N [2] hq]
      simp [hc]
    · simp only [hc, if_false, bind, Except.bind, pure, Except.pure, w1, w2, hM,
        pushPart_spec N [2] hq]
      simp [hc]

end Wicked
