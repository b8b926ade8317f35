import Verif.Model.Base
/-!
# analyze/aps-fiber.c: fiber sets and the worklist

Simplifications.
* `struct fiberset` objects live in a memory `cells`; `cells[a-1]` is the object at address `a`, `0` is `NULL`; `HALLOC`
  appends. A fiber is a number; `0` is the base fiber (its `field` is `NULL`). A tree node is a number.
* The variables that hold fiber sets (six per declaration or expression) are numbered; `heads[s]` is the variable `s`.
* Whether a tree node is an expression whose type is not local (aps-fiber.c:188-203) is a parameter `foreign`.
* Loops along lists get the number of objects plus one as fuel. Debugging output is omitted.
-/
namespace Aps.Fiberset

/-- analyze/aps-fiber.h:27-36 -/
structure Cell where
  rest : Nat
  fiber : Nat
  tnode : Nat
  type : Nat
  next : Nat
  deriving DecidableEq

/-- the memory, the set variables, and the worklist (aps-fiber.c:168-169) -/
structure St where
  cells : List Cell
  heads : List Nat
  wlHead : Nat
  wlTail : Nat

/-- the program's initial state with `n` empty sets -/
def St.init (n : Nat) : St := ⟨[], List.replicate n 0, 0, 0⟩

/-- the object at an address -/
def cellAt (st : St) (a : Nat) : Option Cell := if a = 0 then none else st.cells[a - 1]?

/-- changing the object at an address -/
def setCell (st : St) (a : Nat) (f : Cell → Cell) : Res St :=
  match cellAt st a with
  | none => .ub
  | some c => .ok { st with cells := st.cells.set (a - 1) (f c) }

/-- A pointer to a pointer: a set variable or the `rest` field of an object. -/
inductive Slot
  | var (s : Nat)
  | rest (a : Nat)

/-- `*fsp` -/
def readSlot (st : St) : Slot → Res Nat
  | .var s =>
    match st.heads[s]? with
    | none => .ub
    | some a => .ok a
  | .rest a =>
    match cellAt st a with
    | none => .ub
    | some c => .ok c.rest

/-- `*fsp = v` -/
def writeSlot (st : St) (v : Nat) : Slot → Res St
  | .var s => .ok { st with heads := st.heads.set s v }
  | .rest a => setCell st a (fun c => { c with rest := v })

/-- analyze/aps-fiber.c:204-207: `none` if the fiber is there already, otherwise the place of the final `NULL` -/
def walk (st : St) (fiber : Nat) : Nat → Slot → Res (Option Slot)
  | 0, _ => .nofuel
  | f + 1, sl => do
    let a ← readSlot st sl
    if a = 0 then return some sl
    else
      match cellAt st a with
      | none => .ub
      | some c => if c.fiber = fiber then return none else walk st fiber f (.rest a)

/-- analyze/aps-fiber.c:214-218 -/
def linkTail (st : St) (fs : Nat) : Res St :=
  if st.wlHead = 0 then .ok { st with wlHead := fs }
  else setCell st st.wlTail (fun c => { c with next := fs })

/-- analyze/aps-fiber.c:180-229 (`FIBERSET_TYPE_REVERSE` is bit 0) -/
def addToFiberset (foreign : Nat → Bool) (st : St) (fiber tnode type s : Nat) : Res St :=
  if fiber = 0 then
    if type % 2 = 1 then .stop else .ok st
  else if foreign tnode then .ok st
  else do
    match ← walk st fiber (st.cells.length + 1) (.var s) with
    | none => return st
    | some sl => do
      let fs := st.cells.length + 1
      let st := { st with cells := st.cells ++ [⟨0, fiber, tnode, type, 0⟩] }
      let st ← linkTail st fs
      let st := { st with wlTail := fs }
      writeSlot st fs sl

/-- analyze/aps-fiber.c:231-238 -/
def getNextFiber (st : St) : Res (Nat × St) :=
  let next := st.wlHead
  if next ≠ 0 then
    match cellAt st next with
    | none => .ub
    | some c =>
      let st := { st with wlHead := c.next }
      if next = st.wlTail then .ok (next, { st with wlTail := 0 }) else .ok (next, st)
  else .ok (next, st)

/-- analyze/aps-fiber.c:240-246 -/
def memberFiberset (st : St) (f : Nat) : Nat → Nat → Res Bool
  | 0, _ => .nofuel
  | n + 1, fs =>
    if fs = 0 then .ok false
    else
      match cellAt st fs with
      | none => .ub
      | some c => if f = c.fiber then .ok true else memberFiberset st f n c.rest

/-- analyze/aps-fiber.c:159-166 -/
def fibersetLength (st : St) : Nat → Nat → Res Nat
  | 0, _ => .nofuel
  | n + 1, fs =>
    if fs = 0 then .ok 0
    else
      match cellAt st fs with
      | none => .ub
      | some c => do
        let k ← fibersetLength st n c.rest
        return k + 1

/-- analyze/aps-fiber.c:250-262 — the loop -/
def intersectLoop (fs2 : Nat) : Nat → Nat → Nat → St → Res (Nat × St)
  | 0, _, _, _ => .nofuel
  | n + 1, fs1, fs0, st =>
    if fs1 = 0 then .ok (fs0, st)
    else
      match cellAt st fs1 with
      | none => .ub
      | some c => do
        if ← memberFiberset st c.fiber (st.cells.length + 1) fs2 then
          intersectLoop fs2 n c.rest (st.cells.length + 1)
            { st with cells := st.cells ++ [⟨fs0, c.fiber, c.tnode, c.type, 0⟩] }
        else intersectLoop fs2 n c.rest fs0 st

/-- analyze/aps-fiber.c:248-264 -/
def intersectFiberset (st : St) (fs1 fs2 : Nat) : Res (Nat × St) :=
  intersectLoop fs2 (st.cells.length + 1) fs1 0 st

end Aps.Fiberset
