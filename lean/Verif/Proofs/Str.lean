import Verif.Model.Basic
/-! # Lemmas about decimal strings and spans -/
namespace Wicked

theorem digitChar_toNat : ∀ d : Nat, d < 10 → (digitChar d).toNat = 48 + d := by decide

theorem isDigit_digitChar {d : Nat} (h : d < 10) : isDigit (digitChar d) = true := by
  simp only [isDigit, digitChar_toNat d h, Bool.and_eq_true, decide_eq_true_eq]; omega

theorem natStrAux_fuel : ∀ (f g n : Nat), n < f → n < g → natStrAux f n = natStrAux g n := by
  intro f
  induction f with
  | zero => intro g n h; omega
  | succ f ih =>
    intro g n h1 h2
    cases g with
    | zero => omega
    | succ g =>
      simp only [natStrAux]
      split
      · rfl
      · rw [ih g (n / 10) (by omega) (by omega)]

theorem natStr_eq (n : Nat) :
    natStr n = if n < 10 then [digitChar n] else natStr (n / 10) ++ [digitChar (n % 10)] := by
  unfold natStr
  rw [natStrAux]
  split
  · rfl
  · rw [natStrAux_fuel n (n / 10 + 1) (n / 10) (by omega) (by omega)]

theorem natStr_induct {P : Nat → Prop} (h1 : ∀ n, n < 10 → P n)
    (h2 : ∀ n, ¬ n < 10 → P (n / 10) → P n) (n : Nat) : P n := by
  induction n using Nat.strongRecOn with
  | ind n ih =>
    by_cases h : n < 10
    · exact h1 n h
    · exact h2 n h (ih _ (by omega))

theorem natStr_digits (n : Nat) : ∀ c ∈ natStr n, isDigit c = true := by
  induction n using natStr_induct with
  | h1 n h => rw [natStr_eq]; simp [h, isDigit_digitChar h]
  | h2 n h ih =>
    rw [natStr_eq]; simp only [h, if_false, List.mem_append, List.mem_singleton]
    rintro c (hc | rfl)
    · exact ih c hc
    · exact isDigit_digitChar (by omega)

theorem natStr_ne_nil (n : Nat) : natStr n ≠ [] := by
  rw [natStr_eq]; split <;> simp

theorem digitsVal_append_singleton (s : Str) (c : Char) :
    digitsVal (s ++ [c]) = digitsVal s * 10 + (c.toNat - 48) := by
  simp [digitsVal, List.foldl_append]

theorem digitsVal_natStr (n : Nat) : digitsVal (natStr n) = n := by
  induction n using natStr_induct with
  | h1 n h => rw [natStr_eq]; simp [h, digitsVal, digitChar_toNat n h]
  | h2 n h ih =>
    rw [natStr_eq]; simp only [h, if_false]
    rw [digitsVal_append_singleton, ih, digitChar_toNat _ (by omega)]; omega

theorem natStr_inj {a b : Nat} (h : natStr a = natStr b) : a = b := by
  rw [← digitsVal_natStr a, h, digitsVal_natStr]

theorem takeWhile_span {α} {p : α → Bool} {l r : List α} (hl : ∀ a ∈ l, p a = true)
    (hr : ∀ a, r.head? = some a → p a = false) : (l ++ r).takeWhile p = l := by
  rw [List.takeWhile_append_of_pos hl]
  cases r with
  | nil => simp
  | cons a r => simp [hr a rfl]

theorem dropWhile_span {α} {p : α → Bool} {l r : List α} (hl : ∀ a ∈ l, p a = true)
    (hr : ∀ a, r.head? = some a → p a = false) : (l ++ r).dropWhile p = r := by
  rw [List.dropWhile_append_of_pos hl]
  cases r with
  | nil => simp
  | cons a r => simp [hr a rfl]

theorem mem_takeWhile {α} {p : α → Bool} {l : List α} {a : α} (h : a ∈ l.takeWhile p) : p a = true := by
  have := List.all_takeWhile (p := p) (l := l)
  rw [List.all_eq_true] at this
  exact this a h

theorem isDigit_not_space {c : Char} (h : isDigit c = true) : isSpace c = false := by
  simp only [isDigit, isSpace, Bool.and_eq_true, decide_eq_true_eq, Bool.or_eq_false_iff, beq_eq_false_iff_ne,
    Bool.and_eq_false_iff, decide_eq_false_iff_not] at *; omega

theorem isSpace_not_digit {c : Char} (h : isSpace c = true) : isDigit c = false := by
  cases hc : isDigit c with
  | false => rfl
  | true => rw [isDigit_not_space hc] at h; exact h.symm

theorem natStr_length_pos (n : Nat) : 0 < (natStr n).length :=
  List.length_pos_iff.mpr (natStr_ne_nil n)

end Wicked
