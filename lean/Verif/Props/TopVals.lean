import Verif.Proofs.TopVals
/-! # C108: top-level values in C++ -/
namespace Aps.Props
open Aps Aps.Consts Aps.TopVals

/-- **C108.** If values use only native ones, numbers and what comes before them in the same file, then, whatever the order of files
is, when the program has started every value is that of its expression. -/
theorem C108_values_partial {V : Type} (fns : Nat → Exp V) (zero : V) (fuel : Nat) (native env : Env V)
    (files linked : List (List (Member V))) (hp : linked.Perm files) (hd : Distinct native files.flatten)
    (ho : ∀ f ∈ files, InOrder fns (Known native files) f) (h : start fns zero fuel native linked = .ok env) :
    Solves fns native files.flatten env := by
  have hk : ∀ f ∈ linked, InOrder fns (Known native linked) f := fun f hf => (ho f (hp.mem_iff.1 hf)).mono fun n hn => by
    rcases hn with hn | ⟨g, hg, hn⟩
    · exact .inl hn
    · exact .inr ⟨g, hp.mem_iff.2 hg, hn⟩
  have pf : (order linked).Perm files.flatten := (TopVals.perm_order linked).trans hp.flatten
  have hb : Before fns native (order linked) := before_of (inOrder_order hk)
  rw [start, init_bad _ .ub fuel native (order linked) hb (order linked) [] native rfl (fun n h => h.elim id fun ⟨_, h, _⟩ => (by cases h))] at h
  have s := init_sound fuel _ native env
    ⟨(pf.map _).nodup_iff.2 hd.1, fun m hm => hd.2 m (pf.mem_iff.1 hm)⟩ h
  exact ⟨fun m hm => s.1 m (pf.mem_iff.2 hm), s.2⟩

/-- **C108.** All orders of files give the same values. -/
theorem C108_linked_partial {V : Type} (fns : Nat → Exp V) (zero : V) (fuel fuel' : Nat) (native env env' : Env V)
    (files linked : List (List (Member V))) (hp : linked.Perm files) (hd : Distinct native files.flatten)
    (ho : ∀ f ∈ files, InOrder fns (Known native files) f) (h : start fns zero fuel native files = .ok env)
    (h' : start fns zero fuel' native linked = .ok env') (m : Member V) (hm : m ∈ files.flatten) : env m.name = env' m.name := by
  have s := C108_values_partial fns zero fuel native env files files (.refl _) hd ho h
  have s' := C108_values_partial fns zero fuel' native env' files linked hp hd ho h'
  have pf := TopVals.perm_order files
  exact solves_unique (before_of (inOrder_order ho)) ⟨fun m hm => s.1 m (pf.mem_iff.1 hm), s.2⟩
    ⟨fun m hm => s'.1 m (pf.mem_iff.1 hm), s'.2⟩ (order files) [] (by simp) m (pf.mem_iff.2 hm)

/-- **C108.** If calls of functions come to an end, then the program starts, in whatever order its values are. -/
theorem C108_ends {V : Type} (fns : Nat → Exp V) (zero : V) (native : Env V) (files : List (List (Member V)))
    (hf : ∀ m ∈ files.flatten, Finite fns m.init) :
    ∃ n, ∀ fuel, n ≤ fuel → ∃ env, start fns zero fuel native files = .ok env := by
  obtain ⟨n, hn⟩ := init_ends (ms := order files) fun m hm => hf m ((TopVals.perm_order files).mem_iff.1 hm)
  exact ⟨n, fun fuel h => (init_null fuel (order files) native).resolve_right (hn _ fuel native (fun e => (by cases e)) h)⟩

/-- Two files: `x0 = x3 + x3; x1 = x0 * x9` and `x2 = f0; x3 = 3`; function 0 is `x3`, `x9` is native. -/
def topFiles : List (List (Member Int)) :=
  [[⟨0, false, .op (fun x y => x + y) (.use 3) (.use 3)⟩, ⟨1, false, .op (fun x y => x * y) (.use 0) (.use 9)⟩],
   [⟨2, false, .call 0⟩, ⟨3, false, .lit 3⟩]]

def topFns : Nat → Exp Int := fun _ => .use 3

def topNative : Env Int := fun n => if n = 9 then some 5 else none

theorem top_inOrder : ∀ f ∈ topFiles, InOrder topFns (Known topNative topFiles) f := by
  have k3 : Known topNative topFiles 3 := .inr ⟨_, .tail _ (.head _), _, .tail _ (.head _), rfl, 3, rfl⟩
  have k9 : Known topNative topFiles 9 := .inl ⟨5, rfl⟩
  intro f hf
  rcases List.mem_cons.1 hf with rfl | hf
  · refine ⟨fun n u => ?_, fun n u => ?_, trivial⟩
    · cases u with
      | left u => cases u; exact k3
      | right u => cases u; exact k3
    · cases u with
      | left u => cases u; exact .inr rfl
      | right u => cases u; exact .inl k9
  · rw [List.mem_singleton] at hf; subst hf
    refine ⟨fun n u => ?_, fun n u => (by cases u), trivial⟩
    cases u with
    | call u => cases u; exact k3

example : Distinct topNative topFiles.flatten ∧ (∀ f ∈ topFiles, InOrder topFns (Known topNative topFiles) f) ∧
    (∃ env, start topFns 0 5 topNative topFiles = .ok env ∧ env 1 = some 30) ∧
    ∃ env, start topFns 0 5 topNative topFiles.reverse = .ok env ∧ env 1 = some 30 :=
  ⟨⟨by decide, by decide⟩, top_inOrder, ⟨_, by with_unfolding_all rfl, rfl⟩, ⟨_, by with_unfolding_all rfl, rfl⟩⟩

example : ∀ m ∈ topFiles.flatten, Finite topFns m.init := by
  intro m hm
  simp only [topFiles, List.flatten_cons, List.flatten_nil, List.cons_append, List.nil_append, List.mem_cons, List.not_mem_nil,
    or_false] at hm
  rcases hm with rfl | rfl | rfl | rfl
  · exact .op (.use 3) (.use 3)
  · exact .op (.use 0) (.use 9)
  · exact .call (.use 3)
  · exact .lit 3

/-! ### What goes wrong -/

/-- The first file has `x0 = f0 + f0`, the second one `x1 = x0`; function 0 is 3. -/
def topTwo : List (List (Member Int)) :=
  [[⟨0, false, .op (fun x y => x + y) (.call 0) (.call 0)⟩], [⟨1, false, .use 0⟩]]

/-- **C108, refuted for values of other files.** `x1` is 6 or 0, as the linker decides. -/
theorem C108_files_refuted :
    (∃ env, start (fun _ => .lit 3) 0 5 (fun _ => none) topTwo = .ok env ∧ env 1 = some 6) ∧
    ∃ env, start (fun _ => .lit 3) 0 5 (fun _ => none) topTwo.reverse = .ok env ∧ env 1 = some 0 ∧ env 0 = some 6 :=
  ⟨⟨_, by with_unfolding_all rfl, rfl⟩, ⟨_, by with_unfolding_all rfl, rfl, rfl⟩⟩

/-- **C108, refuted for values that come later in the file.** `x1 = x0; x0 = f0 + f0`: `x1` is 0. -/
theorem C108_later_refuted :
    ∃ env, start (fun _ => .lit 3) 0 5 (fun _ => none) [topTwo.reverse.flatten] = .ok env ∧ env 1 = some 0 ∧ env 0 = some (6 : Int) :=
  ⟨_, by with_unfolding_all rfl, rfl, rfl⟩

end Aps.Props
