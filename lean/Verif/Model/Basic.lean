/-!
# Conventions shared by all model files

A C++ function that can fail is modelled as a function into `Res α`.  The failure
kinds are kept apart so that theorems can say "never undefined behaviour".
-/
namespace Wicked

/-- How a C++ call can end other than by returning a value. (exceptions, e.g. index.cc:60-64, and undefined behaviour) -/
inductive Fault where
  /-- a C++ exception that reaches the caller -/
  | throw
  /-- undefined behaviour (out-of-range access, signed overflow, ...) -/
  | ub
  /-- the process is terminated by `exit(1)` -/
  | exit
  /-- the loop fuel of the model ran out (theorems show this is never returned) -/
  | diverge
deriving DecidableEq, Repr

/-- Result of a C++ call. (see `Fault`; every modelled function of /repo returns this) -/
abbrev Res (α : Type _) := Except Fault α

instance {α : Type _} [DecidableEq α] : DecidableEq (Res α) := fun a b =>
  match a, b with
  | .ok x, .ok y => if h : x = y then isTrue (h ▸ rfl) else isFalse (by intro e; cases e; exact h rfl)
  | .error x, .error y =>
      if h : x = y then isTrue (h ▸ rfl) else isFalse (by intro e; cases e; exact h rfl)
  | .ok _, .error _ => isFalse (by intro e; cases e)
  | .error _, .ok _ => isFalse (by intro e; cases e)

/-- Strings are lists of characters (`std::string` holding ASCII text). (used throughout /repo) -/
abbrev Str := List Char

/-- decimal digit `d < 10` as a character (part of `std::to_string`, rational.cc:88-151, index.cc:21) -/
def digitChar (d : Nat) : Char := Char.ofNat (48 + d)

/-- decimal digits, most significant first; `fuel > n` is always enough (`natStr_eq`) (part of `std::to_string`, rational.cc:88-151) -/
def natStrAux : Nat → Nat → Str
  | 0, _ => []
  | fuel + 1, n =>
    if n < 10 then [digitChar n] else natStrAux fuel (n / 10) ++ [digitChar (n % 10)]

/-- `std::to_string` of a non-negative integer: decimal digits, no leading zeros. (rational.cc:88-151, index.cc:21, orbital_space.cc:129) -/
def natStr (n : Nat) : Str := natStrAux (n + 1) n

/-- `std::to_string` of a (signed) integer. (rational.cc:88-151, index.cc:21, orbital_space.cc:129) -/
def intStr (z : Int) : Str := if z < 0 then '-' :: natStr z.natAbs else natStr z.natAbs

/-- `\d` of a C++ ECMAScript regex in the C locale. (the regexes of rational.cc:209, index.cc:58, tensor.cc:183-185) -/
def isDigit (c : Char) : Bool := 48 ≤ c.toNat && c.toNat ≤ 57

/-- `\s` of a C++ ECMAScript regex in the C locale (space, `\t \n \v \f \r`). (the regexes of rational.cc:209 and expression.cc:259-264) -/
def isSpace (c : Char) : Bool := c.toNat == 32 || (9 ≤ c.toNat && c.toNat ≤ 13)

/-- `[a-zA-Z]`. (the regexes of index.cc:58, tensor.cc:183-185) -/
def isAlpha (c : Char) : Bool :=
  (65 ≤ c.toNat && c.toNat ≤ 90) || (97 ≤ c.toNat && c.toNat ≤ 122)

/-- value of a digit string read left to right (part of `std::stoi`, rational.cc:231-234, index.cc:65) -/
def digitsVal (s : Str) : Nat := s.foldl (fun acc c => acc * 10 + (c.toNat - 48)) 0

/-- `INT_MAX` for a 32-bit `int`. (`int`, rational.cc:231-234, index.cc:65) -/
def intMax : Nat := 2147483647

/-- `std::stoi` on a non-empty string of digits: throws `std::out_of_range` above `INT_MAX`. (rational.cc:231-234, index.cc:65) -/
def stoi (s : Str) : Res Int :=
  if digitsVal s ≤ intMax then .ok (digitsVal s : Int) else .error .throw

end Wicked
