/-!
# The symbol table (parse/symbol.c)

Simplifications: C strings are lists of byte codes without the terminating NUL; the `info` area of
a symbol, which the table never reads, is left out; `malloc`/`calloc` succeed. Symbols are the
addresses of table slots: `base + i * size`.
-/
namespace Aps.Symbol

/-- `MAX_SYMBOL`, parse/symbol.c:19. -/
def maxSymbol : Nat := 4000

/-- The static variables, parse/symbol.c:21-24, 84-85: where the table is, the size of a slot, the
names in the slots used, `num_symbols`, and `unique` of `gensym`. -/
structure Tab where
  base : Nat
  size : Nat
  names : List (List Nat)
  num : Nat
  unique : Nat
  deriving Repr, DecidableEq

/-- Outcome: returned, called `exit`, wrote past the end of an array, looped for more than the fuel
given. -/
inductive Out (α : Type) where
  | ok (a : α) (t : Tab)
  | exit
  | ub
  | nofuel
  deriving Repr, DecidableEq

/-- `init_symbols`, parse/symbol.c:26-31: `calloc` gives `base`; slots are empty. -/
def init (base size : Nat) : Tab := ⟨base, size, [], 0, 0⟩

/-- `&SYMBOL_NUM(i)`, parse/symbol.c:23. -/
def slot (t : Tab) (i : Nat) : Nat := t.base + i * t.size

/-- The loop of `find_symbol`, parse/symbol.c:33-39, from `i` on; `k` is what is left of
`num_symbols - i`. -/
def findFrom (t : Tab) (s : List Nat) : Nat → Nat → Option Nat
  | 0, _ => none
  | k + 1, i => if t.names[i]? = some s then some (slot t i) else findFrom t s k (i + 1)

/-- `find_symbol`, parse/symbol.c:33-39 (`none` is NULL). -/
def find (t : Tab) (s : List Nat) : Option Nat := findFrom t s t.num 0

/-- `add_symbol`, parse/symbol.c:41-56. `strsave` copies the name. -/
def add (s : List Nat) (t : Tab) : Out Nat :=
  if t.num = maxSymbol then .exit
  else .ok (slot t t.num) { t with names := t.names.take t.num ++ [s], num := t.num + 1 }

/-- `intern_symbol`, parse/symbol.c:58-65. -/
def intern (s : List Nat) (t : Tab) : Out Nat :=
  match find t s with
  | none => add s t
  | some p => .ok p t

/-- `symbol_id`, parse/symbol.c:71-73. -/
def symbolId (t : Tab) (p : Nat) : Nat := (p - t.base) / t.size

/-- `id_symbol`, parse/symbol.c:75-77. -/
def idSymbol (t : Tab) (i : Nat) : Nat := slot t i

/-- `symbol_name`, parse/symbol.c:67-69: the `name` field of the slot at that address. -/
def symbolName (t : Tab) (p : Nat) : Option (List Nat) :=
  if p = slot t (symbolId t p) then t.names[symbolId t p]? else none

/-- Decimal digits of `n` (no digit for 0), least significant last; `fuel` many at most. -/
def digits : Nat → Nat → List Nat
  | 0, _ => []
  | f + 1, n => if n = 0 then [] else digits f (n / 10) ++ [48 + n % 10]

/-- What `sprintf(name,"G%06d",n)` writes before the NUL (parse/symbol.c:87), for `n > 0`. -/
def genName (n : Nat) : List Nat :=
  let ds := digits n n
  71 :: (List.replicate (6 - ds.length) 48 ++ ds)

/-- The `do` loop of `gensym`, parse/symbol.c:86-88. `name` has 10 bytes (84): a longer result of
`sprintf` is `ub`. -/
def genLoop : Nat → Tab → Out (List Nat)
  | 0, _ => .nofuel
  | f + 1, t =>
    let t := { t with unique := t.unique + 1 }
    if 10 < (genName t.unique).length + 1 then .ub
    else if (find t (genName t.unique)).isSome then genLoop f t
    else .ok (genName t.unique) t

/-- `gensym`, parse/symbol.c:83-90. -/
def gensym (fuel : Nat) (t : Tab) : Out Nat :=
  match genLoop fuel t with
  | .ok s t => add s t
  | .exit => .exit
  | .ub => .ub
  | .nofuel => .nofuel

/-- The calls of a client. -/
inductive Op where
  | intern (s : List Nat)
  | gensym
  deriving Repr, DecidableEq

/-- One call. -/
def call (fuel : Nat) : Op → Tab → Out Nat
  | .intern s, t => intern s t
  | .gensym, t => gensym fuel t

/-- Calls made one after the other, and the symbols they returned. -/
inductive History : Tab → List (Op × Nat) → Tab → Prop
  | nil (t) : History t [] t
  | cons {t t1 t2 op p rs} (fuel : Nat) : call fuel op t = .ok p t1 → History t1 rs t2 →
      History t ((op, p) :: rs) t2

end Aps.Symbol
