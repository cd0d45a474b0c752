import Verif.Enc.Amo
/-
The search for primes, which gives the sizes of the tables of a BDD kernel
(src/knowledge_compilation/bdd/bdd_prime.rs).

* `usize` is `Nat`; products and sums that do not fit into 64 bits and
  differences below 0 are panics (`none`, as in a build with overflow checks).
* The random numbers are arbitrary: `raw n j` is what the generator returns for
  the `j`-th draw while `n` is tested.  (Each candidate is tested once, so a
  draw of its own for each candidate and attempt is no restriction.)
* The loops of `prime_gte` and `prime_lte` run on fuel.
-/
namespace Verif.Prime
open Verif

/-- bdd_prime.rs 27-29. -/
def isEven (src : Nat) : Bool := src &&& 1 == 0

/-- bdd_prime.rs 39-41. -/
def hasFactor (src n : Nat) : Bool := src != n && src % n == 0

/-- bdd_prime.rs 35-37. -/
def easyFactors (src : Nat) : Bool := hasFactor src 3 || hasFactor src 5 || hasFactor src 7 || hasFactor src 11 || hasFactor src 13

/-- bdd_prime.rs 88-90. -/
def bitSet (src b : Nat) : Bool := src &&& (1 <<< b) != 0

/-- The loop of `number_of_bits`, 80-85, over the bits below the first argument,
from the highest to the lowest. -/
def scan (src : Nat) : Nat → Nat
  | 0 => 1
  | b + 1 => if bitSet src b then b + 1 else scan src b

/-- bdd_prime.rs 76-86: only the bits 0 to 30 are looked at. -/
def numBits (src : Nat) : Nat := if src = 0 then 0 else scan src 31

/-- bdd_prime.rs 92-94. -/
def mulmod (a b c : Nat) : Option Nat := if a * b < 2 ^ 64 ∧ c ≠ 0 then some (a * b % c) else none

/-- The loop of `is_witness`, 63-73, with the bits still to be looked at. -/
def witLoop (w src : Nat) : Nat → Nat → Option Bool
  | 0, d => some (d != 1)
  | i + 1, x => do
    let d ← mulmod x x src
    if d = 1 ∧ x ≠ 1 ∧ x ≠ src - 1 then some true
    else if bitSet (src - 1) i then do witLoop w src i (← mulmod d w src)
    else witLoop w src i d

/-- bdd_prime.rs 60-74; `number_of_bits(src - 1) - 1` needs `src ≥ 2`. -/
def isWitness (w src : Nat) : Option Bool := if src < 2 then none else witLoop w src (numBits (src - 1)) 1

/-- bdd_prime.rs 56-58; an empty range is a panic of `fastrand`. -/
def random (raw i : Nat) : Option Nat := if 1 < i then some (1 + raw % (i - 1)) else none

/-- The loop of `is_miller_rabin_prime`, 46-53; draws are numbered downwards. -/
def mrLoop (raw : Nat → Nat) (src : Nat) : Nat → Option Bool
  | 0 => some true
  | j + 1 => do
    if src < 1 then none
    else if ← isWitness (← random (raw j) (src - 1)) src then some false
    else mrLoop raw src j

/-- bdd_prime.rs 1. -/
def checkTimes : Nat := 20

/-- bdd_prime.rs 31-33. -/
def isPrime (raw : Nat → Nat) (src : Nat) : Option Bool := if easyFactors src then some false else mrLoop raw src checkTimes

/-- The loop of `prime_gte`, 9-11. -/
def up (raw : Nat → Nat → Nat) : Nat → Nat → Out Nat
  | 0, _ => .diverge
  | f + 1, n => match isPrime (raw n) n with
    | none => .panic
    | some true => .ok n
    | some false => if n + 2 < 2 ^ 64 then up raw f (n + 2) else .panic

/-- bdd_prime.rs 4-13. -/
def primeGte (raw : Nat → Nat → Nat) (fuel num : Nat) : Out Nat := up raw fuel (if isEven num then num + 1 else num)

/-- The loop of `prime_lte`, 21-23. -/
def down (raw : Nat → Nat → Nat) : Nat → Nat → Out Nat
  | 0, _ => .diverge
  | f + 1, n => match isPrime (raw n) n with
    | none => .panic
    | some true => .ok n
    | some false => if 2 ≤ n then down raw f (n - 2) else .panic

/-- bdd_prime.rs 16-25. -/
def primeLte (raw : Nat → Nat → Nat) (fuel num : Nat) : Out Nat :=
  if isEven num then (if num = 0 then .panic else down raw fuel (num - 1)) else down raw fuel num

/-- The size asked for by `node_resize`, bdd_kernel.rs 518-523, with
`maxnodeincrease` 50000. -/
def wanted (old : Nat) : Nat := if 2 * old > old + 50000 then old + 50000 else 2 * old

end Verif.Prime
