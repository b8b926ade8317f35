import Verif.Model.Read
/-!
# Where programs are looked for: the path (analyze/aps-read.c:24-64) and the names of files (aps-read.c:99-103, parse/aps.y:32-60)

A C string is the list of its characters before the NUL (no 0 among them). A pointer into a string is the rest of the string from
there on; `none` is the pointer made from NULL by `p=q+1`. Buffers have a capacity, and writing beyond it is `.ub`.
`fopen` succeeds on the names that `F` says.
-/
namespace Aps.Path

abbrev Str := List Nat

/-- strchr, strrchr: the rest of the string from the first (last) occurrence on -/
def strchr (c : Nat) : Str → Option Str
  | [] => none
  | x :: xs => if x = c then some (x :: xs) else strchr c xs

def strrchr (c : Nat) : Str → Option Str
  | [] => none
  | x :: xs => match strrchr c xs with
    | some r => some r
    | none => if x = c then some (x :: xs) else none

/-- aps-read.c:29-33 — `n` -/
def countDirs (path : Str) : Nat := path.foldl (fun n c => if c = 58 then n + 1 else n) 1

/-- aps-read.c:35-42 — the loop: `k` more rounds from `p`. Each directory is `strnsave`d: `s` characters in `s+1` bytes, the last of which is set to NUL. -/
def dirsLoop : Nat → Option Str → Res (List Str)
  | 0, _ => .ok []
  | _ + 1, none => .ub
  | k + 1, some p =>
    let q := strchr 58 p
    let s := match q with
      | none => p.length
      | some q => p.length - q.length
    (dirsLoop k (q.map List.tail)).bind fun ds => .ok (p.take s :: ds)

/-- aps-read.c:28-43 — `set_aps_path`: the entries of `aps_path` before the NULL that `calloc` left at the end -/
def setPath (path : Str) : Res (List Str) := dirsLoop (countDirs path) (some path)

/-- strcpy and strcat into a buffer of `cap` bytes that holds `old` -/
def bufAppend (cap : Nat) (old new : Str) : Res Str := if old.length + new.length + 1 ≤ cap then .ok (old ++ new) else .ub

/-- aps-read.c:53-62 — the loop over the path; `MAXPATHLEN` is 4096 (sys/param.h) -/
def openLoop (maxPath : Nat) (F : Str → Bool) (filename : Str) : List Str → Res (Option Str)
  | [] => .ok none
  | d :: ds =>
    if maxPath ≤ d.length + filename.length then openLoop maxPath F filename ds
    else
      (bufAppend (maxPath + 1) [] d).bind fun buf =>
      (bufAppend (maxPath + 1) buf [47]).bind fun buf =>
      (bufAppend (maxPath + 1) buf filename).bind fun buf =>
      if F buf then .ok (some buf) else openLoop maxPath F filename ds

/-- aps-read.c:45-64 — `aps_open`; `opt` is the path set by `-p`, `env` the value of APSPATH. Result: the name of the file opened. -/
def apsOpen (maxPath : Nat) (F : Str → Bool) (opt env : Option Str) (filename : Str) : Res (Option Str) :=
  (setPath (match opt with
    | some p => p
    | none => match env with
      | some p => p
      | none => [46])).bind fun ds => openLoop maxPath F filename ds

/-- ".aps" -/
def ext : Str := [46, 97, 112, 115]

/-- aps-read.c:101-105 — the file read for a program -/
def openProgram (maxPath : Nat) (F : Str → Bool) (opt env : Option Str) (name : Str) : Res (Option Str) :=
  apsOpen maxPath F opt env (name ++ ext)

/-- parse/aps.y:42-49 — `root_start` -/
def rootStart (f : Str) : Str :=
  match strrchr 47 f with
  | none => f
  | some r => r.tail

/-- parse/aps.y:50-59 — what is before `root_end` -/
def beforeEnd (start : Str) : Str :=
  match strrchr 46 start with
  | none => start
  | some r => start.take (start.length - r.length)

/-- parse/aps.y:41-59 — `filebase` for the file name `f`, which becomes `program_name` -/
def fileBase (f : Str) : Str := beforeEnd (rootStart f)

end Aps.Path
