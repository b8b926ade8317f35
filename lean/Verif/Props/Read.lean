import Verif.Proofs.Read
/-!
# C80: reading programs
-/
set_option linter.unusedVariables false
namespace Aps.Props
open Aps.Read

/-- Whatever files there are, reading ends, also if files are `with` each other. -/
theorem C80_ends (W : Name → Option File) (args : List Name) (F : Parse.Fix) :
    (∃ t, run W args (start F) = .ok t) ∨ run W args (start F) = .stop := by
  obtain ⟨h1, h2, _⟩ := run_start W args F
  cases h : run W args (start F) with
  | ok t => exact .inl ⟨t, rfl⟩
  | ub => exact (h1 h).elim
  | stop => exact .inr rfl
  | nofuel => exact (h2 h).elim

/-- Exactly the files needed are read, each once, and every one is bound and checked. (No directories in names.) -/
theorem C80_needed (W : Name → Option File) (args : List Name) (F : Parse.Fix) (hp : Plain W args) (t : State)
    (h : run W args (start F) = .ok t) :
    (t.progs.map (·.name)).Nodup ∧ (∀ n, n ∈ t.progs.map (·.name) ↔ Needed W args n) ∧ (∀ q ∈ t.progs, W q.name = some q.file) ∧
    ∀ i < t.progs.length, i ∈ t.bound ∧ i ∈ t.typed := by
  obtain ⟨_, _, _, h4⟩ := run_start W args F
  obtain ⟨ht, _, h5, h6⟩ := h4 t h
  have hname : ∀ q ∈ t.progs, Needed W args q.name ∧ W q.name = some q.file := by
    intro q hq
    obtain ⟨k, k1, k2, k3⟩ := ht.from_ q hq
    rw [k3, base_plain (needed_plain hp k1)]
    exact ⟨k1, k2⟩
  refine ⟨ht.once hp, ?_, fun q hq => (hname q hq).2, ?_⟩
  · intro n
    constructor
    · intro hn
      obtain ⟨q, hq, rfl⟩ := List.mem_map.1 hn
      exact (hname q hq).1
    · intro hn
      obtain ⟨j, _, q, hq, rfl⟩ := needed_typed hp ht h5 h6 hn
      exact List.mem_map.2 ⟨q, List.mem_of_getElem? hq, rfl⟩
  · intro i hi
    obtain ⟨j, hj, q, hq, hqn⟩ := needed_typed hp ht h5 h6 (hname t.progs[i] (List.getElem_mem hi)).1
    have hjl := (List.getElem?_eq_some_iff.1 hq).1
    have : i = j := by
      refine (List.nodup_iff_injective_get.1 (ht.once hp)).eq_iff (a := ⟨i, by simpa using hi⟩) (b := ⟨j, by simpa using hjl⟩) |>.1 ?_ |> Fin.mk.inj_iff.1
      simp only [List.get_eq_getElem, List.getElem_map]
      rw [List.getElem?_eq_getElem hjl] at hq
      rw [Option.some.inj hq, hqn]
    subst this
    exact ⟨ht.tbd i hj, hj⟩

/-- It stops only if a file needed is missing or has a syntax error, or more than 100 files are needed. -/
theorem C80_stops (W : Name → Option File) (args : List Name) (F : Parse.Fix) (hp : Plain W args) (h : run W args (start F) = .stop) :
    (∃ n, Needed W args n ∧ W n = none) ∨ (∃ n f F', Needed W args n ∧ W n = some f ∧ Parse.file f.units F' = .stop) ∨
    ∃ l : List Name, l.length = 101 ∧ l.Nodup ∧ ∀ n ∈ l, Needed W args n := by
  obtain ⟨_, _, h3, _⟩ := run_start W args F
  rcases h3 h with h | h | h
  · exact .inl h
  · exact .inr (.inl h)
  · exact .inr (.inr (h hp))

/-- What is known of operators in a file is what the files read before it say. -/
theorem C80_sequence (W : Name → Option File) (args : List Name) (F : Parse.Fix) (t : State) (h : run W args (start F) = .ok t) :
    Parse.files (t.progs.map (·.file.units)) F = .ok (t.progs.map (·.trees)) :=
  progs_files ((run_start W args F).2.2.2 t h).1

/-- examples: main.aps is `with "lib"`, which is `with "main"` and declares `infixr 5 ++` -/
def mainName : Name := [109, 97, 105, 110]
def libName : Name := [108, 105, 98]
def mainFile : File := ⟨[libName], [.decl [.atom 1, .oper [43, 43] none, .atom 2, .oper [43, 43] none, .atom 3]]⟩
def libFile : File := ⟨[mainName], [.fixity .infixr (some 5) [43, 43]]⟩
def exampleFiles : Name → Option File := fun n =>
  if n = mainName then some mainFile else if n = libName then some libFile else if n = basic then some ⟨[], []⟩ else none

example : Plain exampleFiles [mainName] ∧ ∃ t, run exampleFiles [mainName] (start fun _ => none) = .ok t ∧
    t.progs.map (·.name) = [mainName, basic, libName] := by
  refine ⟨⟨by decide, ?_⟩, _, rfl, rfl⟩
  intro m f h n hn
  unfold exampleFiles at h
  split at h
  · cases h; simp only [mainFile, List.mem_singleton] at hn; subst hn; decide
  · split at h
    · cases h; simp only [libFile, List.mem_singleton] at hn; subst hn; decide
    · split at h
      · cases h; cases hn
      · cases h

/-- Not so: an operator has the level the files say that its file is `with`. They are read later: the level holds only if they have been
read for another reason. -/
theorem C80_operators_refuted : ∃ (W : Name → Option File) (m l : Name) (f : File) (e e' : Parse.Ast), W m = some f ∧ l ∈ f.withs ∧
    (∃ t, run W [m] (start fun _ => none) = .ok t ∧ (t.progs.find? (fun q => q.name = m)).map (·.trees) = some [e]) ∧
    (∃ t, run W [l, m] (start fun _ => none) = .ok t ∧ (t.progs.find? (fun q => q.name = m)).map (·.trees) = some [e']) ∧ e ≠ e' := by
  refine ⟨exampleFiles, mainName, libName, mainFile, Parse.binop [43, 43] (Parse.binop [43, 43] (.atom 1) (.atom 2)) (.atom 3),
    Parse.binop [43, 43] (.atom 1) (Parse.binop [43, 43] (.atom 2) (.atom 3)), rfl, by decide, ⟨_, rfl, rfl⟩, ?_, by simp [Parse.binop]⟩
  exact ⟨_, rfl, rfl⟩

/-- d/l.aps is `with "d/l"` -/
def loopFiles : Name → Option File := fun n => if n = [100, 47, 108] then some ⟨[[100, 47, 108]], []⟩ else some ⟨[], []⟩
theorem loop_stops : run loopFiles [[100, 47, 108]] (start fun _ => none) = .stop := by
  have : (match run loopFiles [[100, 47, 108]] (start fun _ => none) with | .stop => true | _ => false) = true := by
    set_option maxRecDepth 100000 in decide +kernel
  generalize run loopFiles [[100, 47, 108]] (start fun _ => none) = r at this ⊢
  cases r <;> first | rfl | cases this

/-- Not so with directories in names: `with "d/l"` reads the file for binding and again for checking, and a file that is `with` itself is
read until there are 100. -/
theorem C80_directories_refuted : ∃ (W W' : Name → Option File) (m d l : Name), (∃ f, W m = some f ∧ f.withs = [d]) ∧
    (∃ t, run W [m] (start fun _ => none) = .ok t ∧ t.progs.map (·.name) = [m, basic, l, l]) ∧
    (∃ f, W' d = some f ∧ f.withs = [d] ∧ f.units = []) ∧ run W' [d] (start fun _ => none) = .stop :=
  ⟨fun n => if n = [109] then some ⟨[[100, 47, 108]], []⟩ else some ⟨[], []⟩,
    loopFiles, [109], [100, 47, 108], [108],
    ⟨_, rfl, rfl⟩, ⟨_, rfl, rfl⟩, ⟨_, rfl, rfl, rfl⟩, loop_stops⟩

end Aps.Props
