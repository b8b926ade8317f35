import Verif.Model.Base
/-!
# Rope strings (parse/string.c)

Simplifications: memory is a list of objects, a `STRING` is the number of one (that `HALLOC` gives
fresh memory is C13); the text of a C string is a list of bytes, none of them 0, without the final
NUL; `int` is unbounded; messages on stderr are left out. An object records both its type code and
what was stored in it, so that reading it at the wrong type is `ub`. The argument of
`realize_string` is a buffer of some length; writing outside is `ub`.
-/
namespace Aps.Rope

/-- What `make_*` stored (parse/string.c:16-49). `chars` is a plain C string, whose "type" is its
first byte. -/
inductive Obj where
  | chars (text : List Nat)
  | constant (value : List Nat)
  | integer (n : Int) (base : Nat)
  | conc (s1 s2 : Nat)
  deriving Repr, DecidableEq

/-- A type code as tested: less than 128 (a plain C string; `0` is the empty one), or one of the
three special codes (parse/string.c:29, 37, 44). -/
inductive Code where
  | plain (first : Nat)
  | constantString | concString | integerString
  | other
  deriving Repr, DecidableEq

/-- A byte read as type code. -/
def codeOfByte (b : Nat) : Code :=
  if b < 128 then .plain b
  else if b = 128 + 43 then .constantString
  else if b = 128 + 41 then .concString
  else if b = 128 + 37 then .integerString
  else .other

/-- The first byte of an object as type code: of a plain C string its first character; of others
what `make_*` stored: note `make_integer_string` stores `CONSTANT_STRING` (parse/string.c:110). -/
def code : Obj → Code
  | .chars t => codeOfByte (t.headD 0)
  | .constant _ => .constantString
  | .integer _ _ => .constantString
  | .conc _ _ => .concString

/-- `make_string`, parse/string.c:81-88 (for non-NULL `s`), with `force_make_string` (71-79). The
test `(unsigned int)*s > 128`, `char` being signed, holds exactly for bytes from 128 on. -/
def makeString (s : List Nat) (m : List Obj) : Nat × List Obj :=
  if 128 ≤ s.headD 0 then (m.length, m ++ [.constant s]) else (m.length, m ++ [.chars s])

/-- `make_saved_string`, parse/string.c:90-92: the same for a copy. -/
def makeSavedString (s : List Nat) (m : List Obj) : Nat × List Obj := makeString s m

/-- `make_stub_string`, parse/string.c:290-295. -/
def makeStubString (s : List Nat) (m : List Obj) : Nat × List Obj := (m.length, m ++ [.constant s])

/-- `make_integer_string` for a base from 2 to 36, parse/string.c:107-116. -/
def makeIntegerString (n : Int) (base : Nat) (m : List Obj) : Nat × List Obj :=
  (m.length, m ++ [.integer n base])

/-- `conc_string`, parse/string.c:135-150. -/
def concString (a b : Nat) (m : List Obj) : Res (Nat × List Obj) :=
  match m[a]?, m[b]? with
  | some x, some y =>
    if code x = .plain 0 then .ok (b, m)
    else if code y = .plain 0 then .ok (a, m)
    else .ok (m.length, m ++ [.conc a b])
  | _, _ => .ub

/-- `digits`, parse/string.c:94-105, for `n ≥ 0`: at most `fuel` rounds. -/
def digitCount (base : Nat) : Nat → Nat → Res Nat
  | 0, _ => .nofuel
  | f + 1, n => if n = 0 then .ok 0 else
    if base = 0 then .ub else (digitCount base f (n / base)).bind fun k => .ok (k + 1)

/-- `string_length`, parse/string.c:152-170. The code `constantString` reads the `value` pointer:
in an object made by `make_integer_string` those bytes are not a pointer (`ub`). -/
def stringLength (m : List Obj) : Nat → Nat → Res Nat
  | 0, _ => .nofuel
  | f + 1, p =>
    match m[p]? with
    | none => .ub
    | some o =>
      match code o, o with
      | .plain _, .chars t => .ok t.length
      | .constantString, .constant t => .ok t.length
      | .integerString, .integer n base =>
        (digitCount base (n.natAbs + 1) n.natAbs).bind fun k => .ok (if n < 0 then k + 1 else k)
      | .concString, .conc a b =>
        (stringLength m f a).bind fun x => (stringLength m f b).bind fun y => .ok (x + y)
      | _, _ => .ub

/-- Write bytes from position `i` on. -/
def writeAt : List Nat → Nat → List Nat → Res (List Nat)
  | buf, _, [] => .ok buf
  | buf, i, b :: bs => if i < buf.length then writeAt (buf.set i b) (i + 1) bs else .ub

/-- `strcpy(s, t); return s + strlen(t)`: copies the NUL too. -/
def copy (buf : List Nat) (i : Nat) (t : List Nat) : Res (Nat × List Nat) :=
  (writeAt buf i (t ++ [0])).bind fun buf => .ok (i + t.length, buf)

/-- The digit loop of `realize_integer_string`, parse/string.c:195-200. -/
def realizeDigits (base : Nat) : Nat → Nat → Nat → List Nat → Res (Nat × List Nat)
  | 0, _, _, _ => .nofuel
  | f + 1, n, i, buf => if n = 0 then .ok (i, buf) else
    if base = 0 then .ub else
    (writeAt buf i [if n % base ≤ 9 then n % base + 48 else n % base + 97]).bind fun buf =>
      realizeDigits base f (n / base) (i + 1) buf

/-- `realize_string_aux`, parse/string.c:208-225, with `realize_constant_string` (172-183) and
`realize_integer_string` (185-206). -/
def realizeAux (m : List Obj) : Nat → Nat → Nat → List Nat → Res (Nat × List Nat)
  | 0, _, _, _ => .nofuel
  | f + 1, p, i, buf =>
    match m[p]? with
    | none => .ub
    | some o =>
      match code o, o with
      | .plain _, .chars t => copy buf i t
      | .constantString, .constant t => copy buf i t
      | .integerString, .integer n base =>
        if n < 0 then
          (writeAt buf i [45]).bind fun buf => realizeDigits base (n.natAbs + 1) n.natAbs (i + 1) buf
        else realizeDigits base (n.natAbs + 1) n.natAbs i buf
      | .concString, .conc a b =>
        (realizeAux m f a i buf).bind fun r => realizeAux m f b r.1 r.2
      | _, _ => .ub

/-- `realize_string`, parse/string.c:227-232. -/
def realizeString (m : List Obj) (fuel p : Nat) (buf : List Nat) : Res (List Nat) :=
  (writeAt buf 0 [0]).bind fun buf =>
  (realizeAux m fuel p 0 buf).bind fun r => writeAt r.2 r.1 [0]

/-- `subst_string`, parse/string.c:297-314. -/
def substString (sub stub : Nat) : Nat → Nat → List Obj → Res (Nat × List Obj)
  | 0, _, _ => .nofuel
  | f + 1, subject, m =>
    if subject = stub then .ok (sub, m)
    else
      match m[subject]? with
      | none => .ub
      | some (.conc a b) =>
        (substString sub stub f a m).bind fun r1 =>
        (substString sub stub f b r1.2).bind fun r2 =>
        if r1.1 = a ∧ r2.1 = b then .ok (subject, r2.2) else concString r1.1 r2.1 r2.2
      | some _ => .ok (subject, m)

end Aps.Rope
