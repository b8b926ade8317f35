import Verif.Model.Path
/-!
# Paths
-/
namespace Aps.Path

/-- the directories, with colons between them -/
def joined : List Str → Str
  | [] => []
  | [d] => d
  | d :: ds => d ++ 58 :: joined ds

/-- `ds` are the directories of the path: at least one, none of them with a colon. -/
def Dirs (path : Str) (ds : List Str) : Prop := ds ≠ [] ∧ joined ds = path ∧ ∀ d ∈ ds, 58 ∉ d

/-- the path that is used: that of `-p`, or else APSPATH, or else `.` -/
inductive InUse : Option Str → Option Str → Str → Prop where
  | option {p e} : InUse (some p) e p
  | env {p} : InUse none (some p) p
  | dot : InUse none none [46]

/-- `d` is a directory where the file can be read -/
def Has (maxPath : Nat) (F : Str → Bool) (f d : Str) : Prop := d.length + f.length < maxPath ∧ F (d ++ [47] ++ f) = true

/-- the last component of a name with directories -/
def LastPart (n b : Str) : Prop := 47 ∉ b ∧ (n = b ∨ ∃ d, n = d ++ 47 :: b)

end Aps.Path
