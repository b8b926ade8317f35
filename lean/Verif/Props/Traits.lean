import Verif.Proofs.Traits
/-!
# C97: the traits of an instance

`traits P g own base csigs = some (ws, ls)`: for `type T := M[…]` with `base` as the text of its base type, where the
module `M` declares `own` and the type is an instance of the classes `csigs`, the Scala code gets the traits `ws` and
the members `ls`.
-/
namespace Aps.Props
open Aps.Service Aps.Traits
open Aps.Bind (Kind)

/-! An example after `base/basic.aps`: the module `INTEGER` without its operations, as an instance of `BASIC`,
`PRINTABLE`, a private class, and `COMBINABLE`. -/

def trProg : Prog := ⟨fun _ => none, fun _ => .other, fun _ => "", fun _ => .other, [], id⟩

def trSigs : List Csig := [
  ⟨true, "BASIC", [], [⟨"equal", .functionDecl⟩]⟩,
  ⟨true, "PRINTABLE", [], [⟨"string", .functionDecl⟩]⟩,
  ⟨false, "HIDDEN", [], [⟨"secret", .functionDecl⟩]⟩,
  ⟨true, "COLLECTION", ["Integer"], [⟨"Element", .typeRenaming⟩, ⟨"initial", .valueDecl⟩, ⟨"{}", .constructorDecl⟩,
    ⟨"equal", .functionDecl⟩]⟩]

/-- **C97.** The traits are those of the public classes of the type, each once and in order, with the type itself and
the actual parameters as type arguments; for an instance of a module that generates a type, nothing is written. -/
theorem C97_traits {P : Prog} {g : Bool} {own : List Decl} {base : String} {csigs : List Csig} :
    (g = true ∧ traits P g own base csigs = none) ∨
    ∃ ls, traits P g own base csigs = some ((csigs.filter fun c => c.isPublic).map fun c =>
      ⟨"C_" ++ c.cls, ("T_" ++ base) :: c.actuals.map fun a => "T_" ++ a⟩, ls) := by
  cases g with
  | true => exact .inl ⟨rfl, rfl⟩
  | false =>
    right
    cases h : traits P false own base csigs with
    | none => simp [traits] at h
    | some x =>
      obtain ⟨ws, ls⟩ := x
      exact ⟨ls, by rw [(traits_eq h).2.1]⟩

/-- **C97.** Every member in the instance is required by one of its traits, is taken from the value of the base type
under its own name, and belongs to a declaration of which the module does not itself declare all members. -/
theorem C97_only {P : Prog} {g : Bool} {own : List Decl} {base : String} {csigs : List Csig} {ws ls}
    (h : traits P g own base csigs = some (ws, ls)) : ∀ l ∈ ls, l.src = "t_" ++ base ∧
      ∃ d, Declared csigs d ∧ l.name = P.code d.name ∧ l.pre ∈ traitMembers d.kind ∧
        ∃ m ∈ traitMembers d.kind, ¬ Has own d.name m := by
  obtain ⟨-, -, s, hs, rfl⟩ := traits_eq h
  have inv := inv_fold (looked base csigs) [] _ (inv_init P own)
  intro l hl
  rw [← hs] at hl
  obtain ⟨x, hx, h1, m, h2, h3⟩ := inv.sound l hl
  obtain ⟨hx1, hx2⟩ := mem_looked.1 (by simpa using hx)
  obtain ⟨p1, p2, p3, p4⟩ := lines_pre h1
  exact ⟨by rw [p3, hx1], x.2, hx2, p2, defines_traitMembers p1 p4, m, defines_traitMembers h2 p4,
    fun ⟨d, hd, e, hm⟩ => h3 d hd e hm⟩

example : traits trProg false [⟨"equal", .functionDecl⟩, ⟨"zero", .valueDecl⟩] "Integer" trSigs = some
    ([⟨"C_BASIC", ["T_Integer"]⟩, ⟨"C_PRINTABLE", ["T_Integer"]⟩, ⟨"C_COLLECTION", ["T_Integer", "T_Integer"]⟩],
     [⟨.v, "string", "t_Integer"⟩, ⟨.T, "Element", "t_Integer"⟩, ⟨.t, "Element", "t_Integer"⟩,
      ⟨.v, "initial", "t_Integer"⟩, ⟨.p, "{}", "t_Integer"⟩, ⟨.v, "{}", "t_Integer"⟩]) := by decide +kernel

/-- **C97.** Every member that a trait of the instance requires is there: the module declares it or a line defines it.
Missing: members that have the name of a procedure, nested module or renaming of a pattern in one of the classes. -/
theorem C97_cover_partial {P : Prog} {g : Bool} {own : List Decl} {base : String} {csigs : List Csig} {ws ls}
    (h : traits P g own base csigs = some (ws, ls)) {n : String} {m : Pre} (hr : Requires csigs n m)
    (hk : ∀ e, Declared csigs e → e.name = n → m ∈ Defines e.kind → m ∈ traitMembers e.kind) :
    Has own n m ∨ ∃ l ∈ ls, l.pre = m ∧ l.name = P.code n := by
  obtain ⟨-, -, s, hs, rfl⟩ := traits_eq h
  have inv := inv_fold (looked base csigs) [] _ (inv_init P own)
  obtain ⟨d, hd, rfl, hm⟩ := hr
  have hb := (inv.rec_ d.name (bitOf m)).2
    (.inr ⟨("t_" ++ base, d), by simpa using mem_looked.2 ⟨rfl, hd⟩, rfl, bit_of_defines (traitMembers_defines hm).1⟩)
  rcases inv.cover d.name m hb with h1 | ⟨src, h1⟩ | ⟨y, hy, h1, h2, h3⟩
  · exact .inl h1
  · exact .inr ⟨_, by rw [← hs]; exact h1, rfl, rfl⟩
  · exact absurd (traitMembers_defines (hk y.2 (mem_looked.1 (by simpa using hy)).2 h1 h2)).2 h3

example : Requires trSigs "{}" .p ∧ (∀ e, Declared trSigs e → e.name = "{}" → .p ∈ Defines e.kind →
    .p ∈ traitMembers e.kind) ∧ ¬ Has [⟨"equal", .functionDecl⟩] "{}" .p := by
  refine ⟨⟨⟨"{}", .constructorDecl⟩, ⟨_, List.mem_of_getElem? (i := 3) rfl, rfl, by decide⟩, rfl, by decide⟩, ?_, ?_⟩
  · rintro e ⟨c, hc, hp, he⟩ hn hd
    simp only [trSigs, List.mem_cons, List.not_mem_nil, or_false] at hc
    rcases hc with rfl | rfl | rfl | rfl <;> revert hn hd <;> revert e <;> decide +kernel
  · rintro ⟨d, hd, hn, hm⟩
    simp at hd; subst hd; simp at hn

/-- **C97, refuted for procedures.** A class with a procedure and a later class with a function of the same name: the
trait of the second requires the function, and nothing defines it. -/
theorem C97_procedure_refuted : ∃ csigs ws ls, traits trProg false [] "T" csigs = some (ws, ls) ∧
    Requires csigs "f" .v ∧ ¬ Has [] "f" .v ∧ ¬ ∃ l ∈ ls, l.pre = .v ∧ l.name = "f" :=
  ⟨[⟨true, "A", [], [⟨"f", .procedureDecl⟩]⟩, ⟨true, "B", [], [⟨"f", .functionDecl⟩]⟩],
    [⟨"C_A", ["T_T"]⟩, ⟨"C_B", ["T_T"]⟩], [], by decide +kernel,
    ⟨⟨"f", .functionDecl⟩, ⟨_, List.mem_of_getElem? (i := 1) rfl, rfl, by decide⟩, rfl, by decide⟩,
    (by rintro ⟨d, hd, _⟩; cases hd), by simp⟩

/-- **C97.** No member is defined by two lines, and none that the module declares itself is defined by a line.
Missing: names that a constructor shares with a function or pattern. -/
theorem C97_once_partial {P : Prog} {g : Bool} {own : List Decl} {base : String} {csigs : List Csig} {ws ls}
    (hc : ∀ a b, P.code a = P.code b → a = b) (hA : Apart fun d => d ∈ own ∨ Declared csigs d)
    (h : traits P g own base csigs = some (ws, ls)) :
    (ls.map fun l => (l.pre, l.name)).Nodup ∧ ∀ l ∈ ls, ∀ n, P.code n = l.name → ¬ Has own n l.pre := by
  obtain ⟨-, -, s, hs, rfl⟩ := traits_eq h
  have o := once_fold (P := P) (fun a b => hc a b) (own := own) (looked base csigs) [] _ (inv_init P own)
    ⟨by simp, fun l hl => by cases hl⟩ (apart_mono (fun d hd => hd.imp id fun ⟨y, hy, e⟩ => by
      rw [← e]; exact (mem_looked.1 (by simpa using hy)).2) hA)
  rw [hs] at o
  refine ⟨o.nodup, fun l hl n hn ⟨d, hd, e, hm⟩ => ?_⟩
  obtain ⟨n', h1, -, h3⟩ := o.bits l hl
  exact h3 d hd (by rw [e]; exact hc _ _ (hn.trans h1)) hm

example : Apart fun d => d ∈ [⟨"equal", .functionDecl⟩, ⟨"zero", .valueDecl⟩] ∨ Declared trSigs d := by
  have key : ∀ d, (d ∈ ([⟨"equal", .functionDecl⟩, ⟨"zero", .valueDecl⟩] : List Decl) ∨ Declared trSigs d) →
      d ∈ ([⟨"equal", .functionDecl⟩, ⟨"zero", .valueDecl⟩, ⟨"string", .functionDecl⟩, ⟨"Element", .typeRenaming⟩,
        ⟨"initial", .valueDecl⟩, ⟨"{}", .constructorDecl⟩] : List Decl) := by
    rintro d (h | ⟨c, hc, hp, h⟩)
    · revert d; decide +kernel
    · simp only [trSigs, List.mem_cons, List.not_mem_nil, or_false] at hc
      rcases hc with rfl | rfl | rfl | rfl <;> simp at hp <;> revert d <;> decide +kernel
  intro d e hd he
  replace hd := key d hd
  replace he := key e he
  clear key; revert e; revert d; decide +kernel

/-- **C97, refuted for constructors.** A class has a constructor, the module a function of the same name: the instance
replaces the function of the module. -/
theorem C97_constructor_refuted : ∃ own csigs ws ls, traits trProg false own "T" csigs = some (ws, ls) ∧
    Has own "c" .v ∧ (⟨.v, "c", "t_T"⟩ : Line) ∈ ls :=
  ⟨[⟨"c", .functionDecl⟩], [⟨true, "A", [], [⟨"c", .constructorDecl⟩]⟩], [⟨"C_A", ["T_T"]⟩],
    [⟨.p, "c", "t_T"⟩, ⟨.v, "c", "t_T"⟩], by decide +kernel, ⟨_, List.mem_singleton.2 rfl, rfl, by decide⟩, by decide⟩

end Aps.Props
