import Verif.Model.Base
/-!
# utilities/prime.c

Simplification: C `int`/`unsigned` values are natural numbers, so the overflow of `i * i`
(n above about 2^31) and of the doubled table size is outside the model; a negative argument is too.
`malloc`/`realloc` are assumed to succeed.
-/
namespace Aps.Prime

/-- utilities/prime.c:9-18 — the static table `primes` (`array == NULL` is the empty array). -/
structure Primes where
  array : Array Bool
  size : Nat

/-- utilities/prime.c:18 — `static PRIMES primes = {NULL, 0}`. -/
def Primes.init : Primes := ⟨#[], 0⟩

/-- utilities/prime.c:7 -/
def doubleSize (x : Nat) : Nat := 2 * x + 1

/-- utilities/prime.c:6 -/
def initialTableSize : Nat := 4973

/-- A read of the table at a C index; outside the allocation it is undefined behaviour. -/
def rd (a : Array Bool) (i : Int) : Res Bool :=
  if 0 ≤ i then
    match a[i.toNat]? with
    | some b => .ok b
    | none => .ub
  else .ub

/-- A write to the table; outside the allocation it is undefined behaviour. -/
def wr (a : Array Bool) (i : Nat) (b : Bool) : Res (Array Bool) :=
  if i < a.size then .ok (a.setIfInBounds i b) else .ub

/-- utilities/prime.c:52-55 — `for (j = ..; j < n; j += i) array[j] = false`.
`0 < i` is part of the test only to make the recursion total; the callers have `i >= 2`. -/
def markMultiples (n i : Nat) (j : Nat) (a : Array Bool) : Res (Array Bool) :=
  if _h : j < n ∧ 0 < i then do
    let a ← wr a j false
    markMultiples n i (j + i) a
  else .ok a
termination_by n - j

/-- utilities/prime.c:46-57 — the outer loop of the sieve, from `i` on. -/
def sieveLoop (n i : Nat) (a : Array Bool) : Res (Array Bool) :=
  if h : i * i < n then do
    let b ← rd a i
    let a ← if b = true then markMultiples n i (i * i) a else .ok a
    sieveLoop n (i + 1) a
  else .ok a
termination_by n - i
decreasing_by
  have : i ≤ i * i := Nat.le_mul_self i
  omega

/-- utilities/prime.c:26-58 -/
def sieve (n : Nat) : Res Primes := do
  let a := Array.replicate n true
  let a ← wr a 0 false
  let a ← wr a 1 false
  let a ← sieveLoop n 2 a
  return ⟨a, n⟩

/-- utilities/prime.c:84-91 — the scan `for (i = p; i < size; i++)`; `none` when it falls through.
The second operand of `&&` is read only if the first is true. -/
def scan (st : Primes) (i : Nat) : Res (Option Nat) :=
  if h : i < st.size then do
    let b ← rd st.array i
    let c ← if b then rd st.array ((i : Int) - 2) else .ok false
    if c then .ok (some i) else scan st (i + 1)
  else .ok none
termination_by st.size - i

/-- utilities/prime.c:82-95 — the `while (true)` loop, with fuel. -/
def searchLoop : Nat → Primes → Nat → Res (Nat × Primes)
  | 0, _, _ => .nofuel
  | fuel + 1, st, p => do
    match ← scan st p with
    | some i => .ok (i, st)
    | none =>
      let st ← sieve (doubleSize st.size)
      searchLoop fuel st p

/-- utilities/prime.c:69-80 — growing the table so that `p` is inside. -/
def ensure (st : Primes) (p : Nat) : Res Primes :=
  if st.size ≤ p then
    let newSize := doubleSize (st.size + initialTableSize)
    sieve (if newSize ≤ p then doubleSize p else newSize)
  else .ok st

/-- utilities/prime.c:66-96 — `next_twin_prime(p)` on the table state `st`. -/
def nextTwinPrime (fuel : Nat) (st : Primes) (p : Nat) : Res (Nat × Primes) := do
  let st ← ensure st p
  searchLoop fuel st p

/-- The table states left behind by histories of `next_twin_prime` calls. -/
inductive Reachable : Primes → Prop
  | init : Reachable Primes.init
  | step {st st' : Primes} {fuel p r : Nat} :
      Reachable st → nextTwinPrime fuel st p = .ok (r, st') → Reachable st'

end Aps.Prime
