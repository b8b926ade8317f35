/-!
# Heap and stack allocation (parse/alloc.c, parse/jbb-alloc.h)

Simplifications: addresses and sizes are natural numbers (no wrap-around; sizes are not negative);
`malloc` is a function `fresh`: the `contents` of the k-th block it gives out start at `fresh k`,
and it does not fail. Blocks are never freed, so a block is named by its number in the list made by
`next`/`prev`.
-/
namespace Aps.Alloc

/-- `BLOCKSIZE`, parse/alloc.c:6. -/
def blockSize : Nat := 10000000

/-- `ALIGN`, parse/jbb-alloc.h:10: `((size)+7)&~7`. -/
def align (n : Nat) : Nat := (n + 7) / 8 * 8

/-- A `struct heap_struct` (parse/alloc.c:12-14: number of blocks in the list, `current`), and its
pointer and limit (58-61: `heap`/`heaptop` or `stack`/`stacktop`). -/
structure St where
  count : Nat
  current : Option Nat
  ptr : Nat
  top : Nat
  deriving Repr, DecidableEq

/-- parse/alloc.c:55-61. -/
def init : St := ⟨0, none, 0, 0⟩

inductive Out (α : Type) where
  | ok (a : α) (s : St)
  | exit
  | ub
  | nofuel
  deriving Repr, DecidableEq

/-- `add_block`, parse/alloc.c:19-39. -/
def addBlock (s : St) : St :=
  match s.current with
  | none => if 0 < s.count then { s with current := some 0 }
            else { s with count := 1, current := some 0 }
  | some c => if c + 1 = s.count then { s with count := s.count + 1, current := some (c + 1) }
              else { s with current := some (c + 1) }

/-- `ALLOC` (parse/jbb-alloc.h:11-12) with `more_heap` or `more_stack` (parse/alloc.c:63-84), which
calls it again. -/
def alloc (fresh : Nat → Nat) : Nat → Nat → St → Out Nat
  | 0, _, _ => .nofuel
  | f + 1, n, s =>
    let temp := s.ptr
    let s := { s with ptr := temp + align n }
    if s.ptr > s.top then
      if n ≥ blockSize then .exit
      else
        let s := addBlock s
        match s.current with
        | none => .ub
        | some c => alloc fresh f n { s with ptr := fresh c, top := fresh c + blockSize }
    else .ok temp s

/-- The loop of `release_to_block`, parse/alloc.c:46-48, starting with block `c` as `current`:
the block it ends with. With `current` NULL the test dereferences it. -/
def findBlock (fresh : Nat → Nat) (mark : Nat) : Nat → Option Nat
  | 0 => if mark < fresh 0 ∨ mark > fresh 0 + blockSize then none else some 0
  | c + 1 => if mark < fresh (c + 1) ∨ mark > fresh (c + 1) + blockSize then findBlock fresh mark c
             else some (c + 1)

/-- `release`, parse/alloc.c:86-94, with `release_to_block` (41-53). -/
def release (fresh : Nat → Nat) (mark : Nat) (s : St) : Out Unit :=
  if mark = 0 then .ok () { s with current := none, ptr := 0, top := 0 }
  else
    match s.current with
    | none => .ub
    | some c =>
      match findBlock fresh mark c with
      | none => .ub
      | some c => .ok () { s with current := some c, ptr := mark, top := fresh c + blockSize }

end Aps.Alloc
