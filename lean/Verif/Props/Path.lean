import Verif.Proofs.Path
/-!
# C96: where programs are found

The specification is in `Spec/Path.lean`.
-/
namespace Aps.Props
open Aps.Path

/-- C96: a path is taken apart at its colons, for every string, without touching what is not there. -/
theorem C96_dirs (path : Str) : ∃ ds, setPath path = .ok ds ∧ Dirs path ds := by
  unfold setPath
  rw [countDirs_eq]
  exact dirsLoop_spec _ path rfl

example : setPath [97, 58, 47, 98, 58] = .ok [[97], [47, 98], []] := by decide

/-- C96: the directories of a path are determined by it. -/
theorem C96_dirs_unique {path : Str} {ds ds' : List Str} (h : Dirs path ds) (h' : Dirs path ds') : ds = ds' := by
  have key : ∀ {a b a' b' : Str}, 58 ∉ a → 58 ∉ a' → a ++ 58 :: b = a' ++ 58 :: b' → a = a' ∧ b = b' := by
    intro a
    induction a with
    | nil =>
      intro b a' b' _ h2 h
      cases a' with
      | nil => simpa using h
      | cons x a' =>
        simp only [List.nil_append, List.cons_append, List.cons.injEq] at h
        exact absurd (by rw [h.1]; simp) h2
    | cons x a ih =>
      intro b a' b' h1 h2 h
      cases a' with
      | nil =>
        simp only [List.nil_append, List.cons_append, List.cons.injEq] at h
        exact absurd (by rw [h.1]; simp) h1
      | cons y a' =>
        simp only [List.cons_append, List.cons.injEq] at h
        obtain ⟨e1, e2⟩ := ih (fun hm => h1 (by simp [hm])) (fun hm => h2 (by simp [hm])) h.2
        exact ⟨by rw [h.1, e1], e2⟩
  have jc : ∀ d e (l : List Str), joined (d :: e :: l) = d ++ 58 :: joined (e :: l) := fun _ _ _ => rfl
  obtain ⟨hne, hj, hd⟩ := h
  obtain ⟨hne', hj', hd'⟩ := h'
  rw [← hj'] at hj
  clear hj'
  induction ds generalizing ds' with
  | nil => exact absurd rfl hne
  | cons d ds ih =>
    cases ds' with
    | nil => exact absurd rfl hne'
    | cons d' ds' =>
      have n1 := hd d (by simp)
      have n2 := hd' d' (by simp)
      cases ds with
      | nil =>
        cases ds' with
        | nil => simpa [joined] using hj
        | cons e' ds' => rw [jc] at hj; simp only [joined] at hj; exact absurd (by rw [hj]; simp) n1
      | cons e ds =>
        cases ds' with
        | nil => rw [jc] at hj; simp only [joined] at hj; exact absurd (by rw [← hj]; simp) n2
        | cons e' ds' =>
          rw [jc, jc] at hj
          obtain ⟨h1, h2⟩ := key n1 n2 hj
          rw [h1, ih (by simp) h2 (fun x hx => hd x (List.mem_cons_of_mem _ hx)) (by simp) (fun x hx => hd' x (List.mem_cons_of_mem _ hx))]

/-- C96: the file read for a program is the one with its name and `.aps` in the first directory of the path in use that has it; none
exactly if no directory has it. The buffer for the name never overflows, however long the path and the name. -/
theorem C96_open (maxPath : Nat) (F : Str → Bool) (opt env : Option Str) (name : Str) :
    ∃ path ds r, InUse opt env path ∧ Dirs path ds ∧ openProgram maxPath F opt env name = .ok r ∧
      (r = none ↔ ∀ d ∈ ds, ¬ Has maxPath F (name ++ ext) d) ∧
      ∀ b, r = some b → ∃ pre d post, ds = pre ++ d :: post ∧ b = d ++ [47] ++ (name ++ ext) ∧ Has maxPath F (name ++ ext) d ∧
        ∀ d' ∈ pre, ¬ Has maxPath F (name ++ ext) d' := by
  obtain ⟨path, hu, he⟩ : ∃ path, InUse opt env path ∧ openProgram maxPath F opt env name =
      (setPath path).bind fun ds => openLoop maxPath F (name ++ ext) ds := by
    cases opt with
    | some p => exact ⟨p, .option, rfl⟩
    | none => cases env with
      | some p => exact ⟨p, .env, rfl⟩
      | none => exact ⟨[46], .dot, rfl⟩
  obtain ⟨ds, e, hd⟩ := C96_dirs path
  obtain ⟨r, er, h1, h2⟩ := openLoop_spec maxPath F (name ++ ext) ds
  exact ⟨path, ds, r, hu, hd, by rw [he, e, Res.bind, er], h1, h2⟩

/-- with APSPATH `a:b`, `m.aps` in both and `n.aps` in b -/
example : openProgram 4096 (fun s => s == [97, 47, 109] ++ ext || s == [98, 47, 109] ++ ext || s == [98, 47, 110] ++ ext) none (some [97, 58, 98]) [109]
      = .ok (some ([97, 47, 109] ++ ext)) ∧
    openProgram 4096 (fun s => s == [97, 47, 109] ++ ext || s == [98, 47, 109] ++ ext || s == [98, 47, 110] ++ ext) none (some [97, 58, 98]) [110]
      = .ok (some ([98, 47, 110] ++ ext)) := by decide

/-- C96: the program read for a name is called by the last part of the name, whatever dots and slashes are in it. -/
theorem C96_name (n : Str) : fileBase (n ++ ext) = Read.base n ∧ LastPart n (Read.base n) :=
  ⟨fileBase_ext (base_lastPart n), base_lastPart n⟩

example : fileBase ([97, 46, 98, 47, 99, 46, 100] ++ ext) = [99, 46, 100] := by decide

/-- C96 (refuted): an empty directory in the path is not the current directory, as in other search paths: `/m.aps` is opened, and `m.aps` is not found. -/
theorem C96_empty_refuted : ¬ ∀ (F : Str → Bool) (name b : Str), openProgram 4096 F none (some []) name = .ok (some b) → b = name ++ ext := by
  intro h
  have := h (fun _ => true) [109] ([47, 109] ++ ext) (by decide)
  revert this; decide

end Aps.Props
