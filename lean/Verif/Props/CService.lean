import Verif.Proofs.CService
/-!
# C103: the types of a parameter in C++

`transfers` gives the typedefs in the generated class of a module that declares `own` and extends the type `t`.
-/
namespace Aps.Props
open Aps.CService
open Aps.Service (Decl Sig Ty SigDecl TDef)

/-- Classes of the example.  0: `NULL[]`; 1: `class ROOTED[]` with `phylum Root`; 2: `module TINY[] :: ROOTED[]` with
`type Name`, a constructor and a private type; 3: `module MORE[] extends U`, `U` of `TINY[]`, with a type `Extra` and a nested
module `Table`; 4: a class with a type `Table`. -/
def csvClasses : List Class := [
  ⟨.none, false, .noType, []⟩,
  ⟨.inst 0, false, .noType, [⟨⟨"Root", .phylumDecl⟩, true⟩]⟩,
  ⟨.mult (.inst 1) (.inst 0), true, .noType,
    [⟨⟨"Name", .typeDecl⟩, true⟩, ⟨⟨"leaf", .constructorDecl⟩, true⟩, ⟨⟨"Hidden", .typeDecl⟩, false⟩]⟩,
  ⟨.none, true, .use 0, [⟨⟨"Extra", .typeRenaming⟩, true⟩, ⟨⟨"Table", .moduleDecl⟩, true⟩]⟩,
  ⟨.none, false, .noType, [⟨⟨"Table", .typeDecl⟩, true⟩]⟩]

/-- Types 0: `U :: TINY[]`; 1: `V := U`; 2: `W :: MORE[]`; 3: `R :: TINY_AGAIN[]`, a renaming; 4: `X :: MORE[], HAS_TABLE[]`;
5: `type S := TINY[]`. -/
def csvProg : Prog where
  cls := fun c => csvClasses[c]?
  cname := fun m => (["NULL", "ROOTED", "TINY", "MORE", "HAS_TABLE"] : List String)[m]?.getD ""
  sig := fun _ => .renaming (.inst 2)
  tname := fun u => (["U", "V", "W", "R", "X", "S"] : List String)[u]?.getD ""
  tdef := fun u => ([.typeFormal (.inst 2), .renaming (.use 0), .phylumFormal (.inst 3), .typeFormal (.use 0),
    .typeFormal (.mult (.inst 3) (.inst 4)), .typeDecl (.inst 2)] : List TDef)[u]?.getD .other
  basic := []

/-- **C103.** Every typedef is for a public type that the signature of the extended parameter offers and whose name the module does
not itself use for a type; it is taken from the class of that parameter, which is the class that the generated one inherits from. -/
theorem C103_only {P : Prog} {fuel : Nat} {own : List Decl} {t : Ty} {st : St} (h : transfers P fuel own t = .ok st) :
    ∀ l ∈ st.out, ∃ u s d, Stands P t u s ∧ Offers P s d ∧ d.pub = true ∧ IsType d.decl.kind ∧ l.name = d.decl.name ∧
      l.src = "C_" ++ P.tname u ∧ (∀ e ∈ own, e.name = d.decl.name → ¬ NamesType e.kind) ∧
      ∀ f ph c, superclass P f ph t = .ok c → l.src = c := by
  intro l hl
  rcases transfers_ran h with ⟨e, -⟩ | ⟨u, s, h1, -, L, h3, I⟩
  · rw [e] at hl; cases hl
  · obtain ⟨d, hd, hp, hk, hn, hs, ho⟩ := I.sound l hl
    exact ⟨u, s, d, h1, offers_of_finds ((h3 d).1 hd), hp, hk, hn, hs, ho, fun f ph c hc => by rw [hs, superclass_stands h1 f ph c hc]⟩

/-- **C103.** Every public type that the signature of the extended parameter offers can be seen in the class under both its names: the
module declares a type of the name, or there are both typedefs.  Missing: types that a module of the signature gets from what it
extends; names that the signature also offers for a module. -/
theorem C103_cover_partial {P : Prog} {fuel : Nat} {own : List Decl} {t : Ty} {st : St} (h : transfers P fuel own t = .ok st)
    {u : Nat} {s : Sig} (hu : Stands P t u s) {d : CDecl} (hd : Offers P s d) (hp : d.pub = true) (hk : IsType d.decl.kind)
    (hM : ∀ c C, P.cls c = some C → C.isModule = true → ¬ Has P C.result d)
    (hN : ∀ e, Offers P s e → e.decl.name = d.decl.name → NamesType e.decl.kind → IsType e.decl.kind) :
    (∃ e ∈ own, e.name = d.decl.name ∧ NamesType e.kind) ∨
      ∀ g, (⟨g, d.decl.name, "C_" ++ P.tname u⟩ : Typedef) ∈ st.out := by
  rcases transfers_ran h with ⟨-, hn⟩ | ⟨u', s', -, h2, L, h3, I⟩
  · exact absurd hu (hn u s)
  · obtain ⟨rfl, rfl⟩ := h2 u s hu
    rcases I.cover _ (I.seen d ((h3 d).2 (finds_of_offers hM hd)) hp hk.names) with h | h | ⟨e, he, -, hn, h1, h2⟩
    · exact .inl h
    · exact .inr h
    · exact absurd (hN e (offers_of_finds ((h3 e).1 he)) hn h1) h2

/-- **C103.** No name is defined twice: neither by two typedefs nor by a typedef and a declaration of a type in the module. -/
theorem C103_once {P : Prog} {fuel : Nat} {own : List Decl} {t : Ty} {st : St} (h : transfers P fuel own t = .ok st) :
    (st.out.map fun l => (l.tag, l.name)).Nodup ∧ ∀ l ∈ st.out, ∀ e ∈ own, e.name = l.name → ¬ NamesType e.kind := by
  rcases transfers_ran h with ⟨e, -⟩ | ⟨u, s, -, -, L, -, I⟩
  · rw [e]; exact ⟨List.nodup_nil, fun l hl => (by cases hl)⟩
  · refine ⟨I.once, fun l hl e he hn => ?_⟩
    obtain ⟨d, -, -, -, h1, -, ho⟩ := I.sound l hl
    exact ho e he (hn.trans h1)

/-- **C103.** If the extended type is defined, and not in terms of itself, both functions end without a crash. -/
theorem C103_ends {P : Prog} {t : Ty} (h : TyDefined P t) : ∃ N, ∀ fuel, N ≤ fuel →
    (∀ own, ∃ st, transfers P fuel own t = .ok st) ∧ ∀ ph, ∃ c, superclass P fuel ph t = .ok c := by
  obtain ⟨N, hN⟩ := ty_ends h
  obtain ⟨M, hM⟩ := superclass_ends h
  exact ⟨max N M, fun fuel hle => ⟨fun own => hN fuel (by omega) _, hM fuel (by omega)⟩⟩

/-! ### Examples -/

example : TyDefined csvProg (.use 1) :=
  .typeRenaming rfl (.typeFormal rfl (.inst rfl (.mult (.inst rfl (.inst rfl .none)) (.inst rfl .none))))

/-- A module that extends `V` and declares `Name` itself. -/
example : ∃ st, transfers csvProg 9 [⟨"Name", .typeDecl⟩, ⟨"Root", .functionDecl⟩] (.use 1) = .ok st ∧
    st.out = [⟨.C, "Root", "C_U"⟩, ⟨.T, "Root", "C_U"⟩] ∧ superclass csvProg 9 false (.use 1) = .ok "C_U" :=
  ⟨_, by with_unfolding_all rfl, by decide +kernel, by with_unfolding_all rfl⟩

/-- The example without the module that extends `U`. -/
def csvProg' : Prog := { csvProg with cls := fun c => if c = 3 then none else csvProg.cls c }

theorem csv_cls {c : Nat} {C : Class} (h : csvProg'.cls c = some C) : c ≠ 3 ∧ csvClasses[c]? = some C := by
  have h : (if c = 3 then none else csvClasses[c]?) = some C := h
  split at h
  · cases h
  · exact ⟨by assumption, h⟩

/-- The hypotheses of `C103_cover_partial` are met. -/
example : (∃ st, transfers csvProg' 9 [] (.use 1) = .ok st) ∧ Stands csvProg' (.use 1) 0 (.inst 2) ∧
    Offers csvProg' (.inst 2) ⟨⟨"Root", .phylumDecl⟩, true⟩ ∧
    (∀ c C, csvProg'.cls c = some C → C.isModule = true → ¬ Has csvProg' C.result ⟨⟨"Root", .phylumDecl⟩, true⟩) ∧
    ∀ e, Offers csvProg' (.inst 2) e → e.decl.name = "Root" → NamesType e.decl.kind → IsType e.decl.kind := by
  have cases : ∀ c C, csvProg'.cls c = some C → (C : Class).result = .noType ∧ ∀ e ∈ C.contents, NamesType e.decl.kind → IsType e.decl.kind := by
    intro c C h
    obtain ⟨hc, h⟩ := csv_cls h
    have hl := (List.getElem?_eq_some_iff.1 h).1
    have : c = 0 ∨ c = 1 ∨ c = 2 ∨ c = 4 := by simp [csvClasses] at hl; omega
    rcases this with rfl | rfl | rfl | rfl <;> cases h <;> refine ⟨rfl, ?_⟩ <;> simp [IsType, NamesType]
  have none : ∀ d, ¬ Has csvProg' .noType d := fun d h => by cases h with | plain h _ => cases h
  have hM : ∀ c C, csvProg'.cls c = some C → C.isModule = true → ∀ d, ¬ Has csvProg' C.result d := by
    intro c C h _ d; rw [(cases c C h).1]; exact none d
  refine ⟨⟨_, by with_unfolding_all rfl⟩, .typeRenaming rfl (.typeFormal rfl), .parent rfl (.left (.own rfl (by decide))),
    fun c C h hm => hM c C h hm _, fun e he _ => ?_⟩
  have decl : ∀ {s e}, Finds csvProg' s e → ∃ c C, csvProg'.cls c = some C ∧ e ∈ C.contents := by
    intro s e h
    induction h with
    | own h1 h2 => exact ⟨_, _, h1, h2⟩
    | _ => assumption
  obtain ⟨c, C, h1, h2⟩ := decl (finds_of_offers (fun c C h hm => hM c C h hm e) he)
  exact (cases c C h1).2 e h2

/-! ### What goes wrong -/

/-- **C103, refuted for modules as signatures.** The types that a module gets from what it extends are not seen in a module that
extends a parameter of that signature. -/
theorem C103_extends_refuted : ∃ st, transfers csvProg 9 [] (.use 2) = .ok st ∧ Stands csvProg (.use 2) 2 (.inst 3) ∧
    Offers csvProg (.inst 3) ⟨⟨"Name", .typeDecl⟩, true⟩ ∧ ∀ l ∈ st.out, l.name ≠ "Name" :=
  ⟨_, by with_unfolding_all rfl, .phylumFormal rfl, .result rfl rfl (.typeFormal rfl (.own rfl (by decide))), by decide +kernel⟩

/-- **C103, refuted for renamed signatures.** There is an error, after the types were transferred. -/
theorem C103_renaming_refuted : ∃ st, transfers csvProg 9 [] (.use 3) = .ok st ∧ st.errors = 1 ∧ st.out.length = 4 :=
  ⟨_, by with_unfolding_all rfl, by decide +kernel, by decide +kernel⟩

/-- **C103, refuted for nested modules.** A type with the name of a module that the signature offers too. -/
theorem C103_module_refuted : ∃ st, transfers csvProg 9 [] (.use 4) = .ok st ∧
    Offers csvProg (.mult (.inst 3) (.inst 4)) ⟨⟨"Table", .typeDecl⟩, true⟩ ∧ ∀ l ∈ st.out, l.name ≠ "Table" :=
  ⟨_, by with_unfolding_all rfl, .right (.own rfl (by decide)), by decide +kernel⟩

end Aps.Props
