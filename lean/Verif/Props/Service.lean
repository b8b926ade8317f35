import Verif.Proofs.Service
/-!
# C91: the services of an extended type

`transfers P fuel own b t val`: the lines that the Scala backend writes into the class of a module that declares `own`
and extends the type `t` (a phylum if `b`).
-/
namespace Aps.Props
open Aps.Service
open Aps.Bind (Kind)

/-! An example after `base/basic.aps` and `examples/tiny.aps`: the module `TINY` with phyla and constructors, the type
parameter `T :: var TINY[]` (type declaration 0). -/

def svcClasses : List Class := [
  ⟨"NULL", false, .none, false, .noType, []⟩,
  ⟨"BASIC", false, .inst 0, false, .noType, [⟨"equal", .functionDecl⟩]⟩,
  ⟨"PRINTABLE", false, .none, false, .noType, [⟨"string", .functionDecl⟩]⟩,
  ⟨"NULL_TYPE", true, .inst 0, false, .noType, []⟩,
  ⟨"TYPE", true, .mult (.inst 1) (.inst 2), false, .inst 3,
    [⟨"assert", .functionDecl⟩, ⟨"equal", .functionDecl⟩, ⟨"node_equivalent", .functionDecl⟩, ⟨"string", .functionDecl⟩]⟩,
  ⟨"NULL_PHYLUM", true, .inst 0, true, .noType, []⟩,
  ⟨"PHYLUM", true, .mult (.inst 1) (.inst 2), true, .inst 5,
    [⟨"assert", .functionDecl⟩, ⟨"identical", .functionDecl⟩, ⟨"equal", .valueRenaming⟩, ⟨"string", .functionDecl⟩]⟩,
  ⟨"TINY", true, .none, false, .noType,
    [⟨"Root", .phylumDecl⟩, ⟨"Wood", .phylumDecl⟩, ⟨"root", .constructorDecl⟩, ⟨"leaf", .constructorDecl⟩]⟩,
  ⟨"PROC", true, .none, false, .noType, [⟨"f", .procedureDecl⟩]⟩,
  -- module SYN[U :: TINY[]] extends U; U is type declaration 3
  ⟨"SYN", true, .none, false, .use 3, [⟨"sum", .attributeDecl⟩]⟩,
  -- module TYPE[] extends a phylum-free type with a service, in a user's file
  ⟨"TYPE", true, .none, false, .inst 7, []⟩]

/-- Type declarations 0-4: `T :: TINY[]`, `phylum P`, `T :: PROC[]`, `U :: TINY[]` of `SYN`, `S := SYN[…]`; 5: a type of
the user's module `TYPE`; 6: `R :: RENAMED`. -/
def svcProg : Prog where
  cls := fun c => svcClasses[c]?
  sig := fun _ => .renaming (.inst 2)
  tname := fun u => (["T", "P", "T", "U", "S", "X", "R"] : List String)[u]?.getD ""
  tdef := fun u => ([.typeFormal (.inst 7), .phylumDecl .noType, .typeFormal (.inst 8), .typeFormal (.inst 7),
    .typeDecl (.inst 9), .typeDecl (.inst 10), .typeFormal (.use 0)] : List TDef)[u]?.getD .other
  basic := [("NULL", 0), ("BASIC", 1), ("PRINTABLE", 2), ("NULL_TYPE", 3), ("TYPE", 4), ("NULL_PHYLUM", 5), ("PHYLUM", 6)]
  code := id

/-- **C91.** Every line in the generated class defines a member of a service that the extended type offers, under its
own name, and the module does not itself declare all members of that service. -/
theorem C91_only {P : Prog} {fuel : Nat} {own : List Decl} {b : Bool} {t : Ty} {val : String} {st : St}
    (h : transfers P fuel own b t val = .ok st) : ∀ l ∈ st.out, ∃ d, Offers P (.ty b t) d ∧ l.name = P.code d.name ∧
      l.pre ∈ Defines d.kind ∧ ∃ m ∈ Defines d.kind, ∀ e ∈ own, e.name = d.name → m ∉ Defines e.kind := by
  obtain ⟨L, r⟩ := go_ran P _ _ _ _ _ h
  have inv := inv_fold L [] _ (inv_init P own)
  intro l hl
  have hl : l ∈ (core st).2 := hl
  rw [r.core] at hl
  obtain ⟨x, hx, h1, h2⟩ := inv.sound l hl
  exact ⟨x.2, offers_of_finds (r.only x (by simpa using hx)), (lines_pre h1).2.1, (lines_pre h1).1, h2⟩

example : ∃ st, transfers svcProg 20 [⟨"sum", .attributeDecl⟩, ⟨"string", .functionDecl⟩] false (.use 0) "t_T" = .ok st ∧
    st.out = [⟨.v, "equal", "t_T"⟩, ⟨.v, "assert", "t_T"⟩, ⟨.v, "node_equivalent", "t_T"⟩,
      ⟨.T, "Root", "t_T"⟩, ⟨.t, "Root", "t_T"⟩, ⟨.T, "Wood", "t_T"⟩, ⟨.t, "Wood", "t_T"⟩,
      ⟨.p, "root", "t_T"⟩, ⟨.v, "root", "t_T"⟩, ⟨.p, "leaf", "t_T"⟩, ⟨.v, "leaf", "t_T"⟩] :=
  ⟨_, by with_unfolding_all rfl, by decide +kernel⟩

/-- **C91.** Every member of every service that the extended type offers is there in the generated class: the module
declares it or there is a line for it.  Missing: services whose name a procedure, a renaming of a pattern, or a nested
module or parameter of the extended type also has. -/
theorem C91_cover_partial {P : Prog} {fuel : Nat} {own : List Decl} {b : Bool} {t : Ty} {val : String} {st : St}
    (hT : TypeOk P) (h : transfers P fuel own b t val = .ok st) {d : Decl} (hd : Offers P (.ty b t) d) {m : Pre}
    (hm : m ∈ Defines d.kind)
    (hk : ∀ e, Offers P (.ty b t) e → e.name = d.name → m ∈ Defines e.kind → Transferred e.kind) :
    (∃ e ∈ own, e.name = d.name ∧ m ∈ Defines e.kind) ∨ ∃ l ∈ st.out, l.pre = m ∧ l.name = P.code d.name := by
  obtain ⟨L, r⟩ := go_ran P _ _ _ _ _ h
  have inv := inv_fold L [] _ (inv_init P own)
  obtain ⟨x, hx, e⟩ := r.all d (finds_of_offers hT hd)
  have hb := (inv.rec_ d.name (bitOf m)).2 (.inr ⟨x, by simpa using hx, by rw [e], by rw [e]; exact bit_of_defines hm⟩)
  rcases inv.cover d.name m hb with h1 | ⟨src, h1⟩ | ⟨y, hy, h1, h2, h3⟩
  · exact .inl h1
  · right
    refine ⟨⟨m, P.code d.name, src⟩, ?_, rfl, rfl⟩
    have : st.out = (core st).2 := rfl
    rw [this, r.core]; exact h1
  · exact absurd (hk y.2 (offers_of_finds (r.only y (by simpa using hy))) h1 h2) h3

/-- The example has a proper module `TYPE` once the user's own one is taken out. -/
def svcProg' : Prog := { svcProg with cls := fun c => if c = 10 then none else svcProg.cls c }

theorem svc_cls {c : Nat} {C : Class} (h : svcProg'.cls c = some C) :
    c < 10 ∧ svcClasses[c]? = some C := by
  have h : (if c = 10 then none else svcClasses[c]?) = some C := h
  split at h
  · cases h
  · have := (List.getElem?_eq_some_iff.1 h).1
    simp [svcClasses] at this
    exact ⟨by omega, h⟩

theorem svc_null (d : Decl) : ¬ Offers svcProg' (.sig (.inst 0)) d := by
  intro h
  cases h with
  | sigInst h =>
    cases h with
    | own h1 h2 => have := (svc_cls h1).2; simp [svcClasses] at this; subst this; simp at h2
    | parent h1 h2 => have := (svc_cls h1).2; simp [svcClasses] at this; subst this; cases h2
    | result h1 h2 _ => have := (svc_cls h1).2; simp [svcClasses] at this; subst this; simp at h2

theorem svc_typeOk : TypeOk svcProg' := by
  refine ⟨fun c C h hm hn => ?_⟩
  obtain ⟨hlt, h⟩ := svc_cls h
  have : c = 0 ∨ c = 1 ∨ c = 2 ∨ c = 3 ∨ c = 4 ∨ c = 5 ∨ c = 6 ∨ c = 7 ∨ c = 8 ∨ c = 9 := by omega
  rcases this with rfl | rfl | rfl | rfl | rfl | rfl | rfl | rfl | rfl | rfl <;> simp [svcClasses] at h <;> subst h <;>
    simp at hn
  exact ⟨by decide +kernel, 3, _, rfl, rfl, by decide, rfl, rfl, rfl, rfl, svc_null⟩

example : TypeOk svcProg' ∧ Offers svcProg' (.ty false (.use 0)) ⟨"node_equivalent", .functionDecl⟩ ∧
    Offers svcProg' (.ty false (.use 0)) ⟨"leaf", .constructorDecl⟩ :=
  ⟨svc_typeOk,
    .typeFormal rfl (.sigInst (.result rfl rfl (.plainType (c := 4) (by decide +kernel) (.own rfl (by decide))))),
    .typeFormal rfl (.sigInst (.own rfl (by decide)))⟩

/-- **C91.** No member of the generated class is defined by two lines, and none that the module declares itself is
defined by a line.  Missing: names that a constructor shares with a function or pattern. -/
theorem C91_once_partial {P : Prog} {fuel : Nat} {own : List Decl} {b : Bool} {t : Ty} {val : String} {st : St}
    (hc : ∀ a b, P.code a = P.code b → a = b) (hA : Apart fun d => d ∈ own ∨ Offers P (.ty b t) d)
    (h : transfers P fuel own b t val = .ok st) :
    (st.out.map fun l => (l.pre, l.name)).Nodup ∧
      ∀ l ∈ st.out, ∀ d ∈ own, P.code d.name = l.name → l.pre ∉ Defines d.kind := by
  obtain ⟨L, r⟩ := go_ran P _ _ _ _ _ h
  have o := once_fold (P := P) (fun a b => hc a b) (own := own) L [] _ (inv_init P own)
    ⟨by simp, fun l hl => by cases hl⟩ (apart_mono (fun d hd => hd.imp id fun ⟨y, hy, e⟩ => by
      rw [← e]; exact offers_of_finds (r.only y (by simpa using hy))) hA)
  have e : core st = L.foldl (stepC P) (own.foldl addRec (fun _ => 0), []) := r.core
  rw [← e] at o
  refine ⟨o.nodup, fun l hl d hd hn => ?_⟩
  obtain ⟨n, h1, -, h3⟩ := o.bits l hl
  exact h3 d hd (hc _ _ (hn.trans h1))

theorem svc_declared {P : Prog} {j : Job} {d : Decl} (h : Offers P j d) : ∃ c C, P.cls c = some C ∧ d ∈ C.contents := by
  induction h with
  | own h1 h2 => exact ⟨_, _, h1, h2⟩
  | _ => assumption

example : Apart fun d => d ∈ [(⟨"sum", .attributeDecl⟩ : Decl), ⟨"string", .functionDecl⟩] ∨
    Offers svcProg' (.ty false (.use 0)) d := by
  have all : ∀ d, (d ∈ [(⟨"sum", .attributeDecl⟩ : Decl), ⟨"string", .functionDecl⟩] ∨
      Offers svcProg' (.ty false (.use 0)) d) →
      d ∈ [(⟨"sum", .attributeDecl⟩ : Decl), ⟨"string", .functionDecl⟩] ++ svcClasses.flatMap fun C => C.contents := by
    rintro d (h | h)
    · exact List.mem_append_left _ h
    · obtain ⟨c, C, h1, h2⟩ := svc_declared h
      exact List.mem_append_right _ (List.mem_flatMap.2 ⟨C, List.mem_of_getElem? (svc_cls h1).2, h2⟩)
  intro d e hd he
  have key : ∀ d ∈ [(⟨"sum", .attributeDecl⟩ : Decl), ⟨"string", .functionDecl⟩] ++
      svcClasses.flatMap fun C => C.contents, ∀ e ∈ [(⟨"sum", .attributeDecl⟩ : Decl), ⟨"string", .functionDecl⟩] ++
      svcClasses.flatMap fun C => C.contents, d.name = e.name → d.kind = .constructorDecl →
      (.p ∈ Defines e.kind ∨ .v ∈ Defines e.kind) → e.kind = .constructorDecl := by decide +kernel
  exact key d (all d hd) e (all e he)

/-- **C91.** The members are taken from the value of the extended type, if that type is a parameter or declaration `u`
and no other type is named in its definition. -/
theorem C91_src_partial {P : Prog} {fuel : Nat} {own : List Decl} {b : Bool} {u : Nat} {st : St}
    (hn : ∀ v, Names P (.ty b (.use u)) v → v = u)
    (h : transfers P fuel own b (.use u) ("t_" ++ P.tname u) = .ok st) : ∀ l ∈ st.out, l.src = "t_" ++ P.tname u := by
  obtain ⟨L, r⟩ := go_ran P _ _ _ _ _ h
  have inv := inv_fold L [] _ (inv_init P own)
  intro l hl
  have hl : l ∈ (core st).2 := hl
  rw [r.core] at hl
  obtain ⟨x, hx, h1, -⟩ := inv.sound l hl
  rw [(lines_pre h1).2.2.1]
  rcases r.srcs x (by simpa using hx) with e | ⟨v, hv, e⟩
  · exact e
  · rw [e, hn v hv]

/-- The types and signatures that the parameter `T` of the example is made of, apart from its own name. -/
def svcQuiet : Job → Bool
  | .cls c => c ≤ 4 || c == 7
  | .sig s => s == .none || s == .inst 0 || s == .inst 1 || s == .inst 2 || s == .mult (.inst 1) (.inst 2) || s == .inst 7
  | .ty b t => b == false && (t == .noType || t == .inst 3)

theorem svc_quiet {j : Job} {v : Nat} (h : Names svcProg' j v) : ¬ svcQuiet j = true := by
  have cls : ∀ {c C}, svcProg'.cls c = some C → svcQuiet (.cls c) = true → svcQuiet (.sig C.parent) = true ∧
      (C.isModule = true → svcQuiet (.ty C.resultIsPhylum C.result) = true) := by
    intro c C h hq
    obtain ⟨_, h⟩ := svc_cls h
    simp only [svcQuiet, Bool.or_eq_true, decide_eq_true_eq, beq_iff_eq] at hq
    have : c = 0 ∨ c = 1 ∨ c = 2 ∨ c = 3 ∨ c = 4 ∨ c = 7 := by omega
    rcases this with rfl | rfl | rfl | rfl | rfl | rfl <;> cases h <;> decide
  intro hq
  induction h with
  | inst h ih =>
    refine ih ?_
    simp [svcQuiet] at hq; simp [hq, svcQuiet]
  | @plain b c _ hb _ ih =>
    have : b = false := by simpa [svcQuiet] using hq
    subst this
    rw [show findBasic svcProg' (if false = true then "PHYLUM" else "TYPE") = some 4 by decide +kernel] at hb
    cases hb; exact ih rfl
  | parent h1 _ ih => exact ih (cls h1 hq).1
  | result h1 h2 _ ih => exact ih ((cls h1 hq).2 h2)
  | left _ ih => refine ih ?_; simp [svcQuiet] at hq; simp [hq, svcQuiet]
  | right _ ih => refine ih ?_; simp [svcQuiet] at hq; simp [hq, svcQuiet]
  | sigInst _ ih => refine ih ?_; simp [svcQuiet] at hq; simp [svcQuiet]; omega
  | _ => simp [svcQuiet] at hq

example : (∀ v, Names svcProg' (.ty false (.use 0)) v → v = 0) ∧
    ∃ st, transfers svcProg' 20 [] false (.use 0) ("t_" ++ svcProg'.tname 0) = .ok st ∧ st.out.length = 12 := by
  refine ⟨fun v h => ?_, _, by with_unfolding_all rfl, by decide +kernel⟩
  have hu : svcProg'.tdef 0 = .typeFormal (.inst 7) := rfl
  cases h with
  | self => rfl
  | typeDecl h => rw [hu] at h; cases h
  | phylumDecl h => rw [hu] at h; cases h
  | typeFormal h h' => rw [hu] at h; cases h; exact absurd rfl (svc_quiet h')
  | phylumFormal h => rw [hu] at h; cases h
  | typeRenaming h => rw [hu] at h; cases h

/-- What the search for the services of the parameter `T` of the example comes to, with a bound on what is to come. -/
def svcRank : Job → Option Nat
  | .cls 0 => some 1 | .cls 1 => some 3 | .cls 2 => some 1 | .cls 4 => some 7 | .cls 7 => some 9
  | .sig .none => some 0 | .sig (.inst 0) => some 2 | .sig (.inst 1) => some 4 | .sig (.inst 2) => some 2
  | .sig (.mult (.inst 1) (.inst 2)) => some 5 | .sig (.inst 7) => some 10
  | .ty false .noType => some 8 | .ty false (.use 0) => some 11
  | _ => none

theorem svc_needs {c : Nat} {C : Class} (hC : svcProg'.cls c = some C) {j : Job} (h : Needs svcProg' (.cls c) j) :
    j = .sig C.parent ∨ (C.isModule && decide (C.name ≠ "TYPE")) = true ∧ j = .ty C.resultIsPhylum C.result := by
  cases h with
  | parent h1 => rw [hC] at h1; cases h1; exact .inl rfl
  | result h1 h2 h3 => rw [hC] at h1; cases h1; exact .inr ⟨by simp [h2, h3], rfl⟩

theorem svc_rank {j j' : Job} {n : Nat} (h : svcRank j = some n) (hn : Needs svcProg' j j') :
    ∃ m, svcRank j' = some m ∧ m < n := by
  unfold svcRank at h
  split at h <;> cases h
  · rcases svc_needs rfl hn with rfl | ⟨h, -⟩
    · exact ⟨0, rfl, by decide⟩
    · exact absurd h (by decide)
  · rcases svc_needs rfl hn with rfl | ⟨h, -⟩
    · exact ⟨2, rfl, by decide⟩
    · exact absurd h (by decide)
  · rcases svc_needs rfl hn with rfl | ⟨h, -⟩
    · exact ⟨0, rfl, by decide⟩
    · exact absurd h (by decide)
  · rcases svc_needs rfl hn with rfl | ⟨h, -⟩
    · exact ⟨5, rfl, by decide⟩
    · exact absurd h (by decide +kernel)
  · rcases svc_needs rfl hn with rfl | ⟨-, rfl⟩
    · exact ⟨0, rfl, by decide⟩
    · exact ⟨8, rfl, by decide⟩
  · cases hn
  · cases hn; exact ⟨1, rfl, by decide⟩
  · cases hn; exact ⟨3, rfl, by decide⟩
  · cases hn; exact ⟨1, rfl, by decide⟩
  · cases hn
    · exact ⟨4, rfl, by decide⟩
    · exact ⟨2, rfl, by decide⟩
  · cases hn; exact ⟨9, rfl, by decide⟩
  · cases hn with
    | plain hb =>
      rw [show findBasic svcProg' (if false = true then "PHYLUM" else "TYPE") = some 4 by decide +kernel] at hb
      cases hb; exact ⟨7, rfl, by decide⟩
  · have hu : svcProg'.tdef 0 = .typeFormal (.inst 7) := rfl
    cases hn with
    | typeDecl h => rw [hu] at h; cases h
    | phylumDecl h => rw [hu] at h; cases h
    | typeFormal h => rw [hu] at h; cases h; exact ⟨10, rfl, by decide⟩
    | phylumFormal h => rw [hu] at h; cases h
    | typeRenaming h => rw [hu] at h; cases h

theorem svc_acc : ∀ n j, svcRank j = some n → Acc (fun x y => Needs svcProg' y x) j := by
  intro n
  induction n using Nat.strongRecOn with
  | _ n ih =>
    intro j h
    refine ⟨_, fun j' hn => ?_⟩
    obtain ⟨m, h1, h2⟩ := svc_rank h hn
    exact ih m h2 j' h1

theorem svc_found {j j' : Job} (h : Relation.ReflTransGen (Needs svcProg') j j') : (∃ n, svcRank j = some n) →
    ∃ n, svcRank j' = some n := by
  intro hj
  induction h with
  | refl => exact hj
  | tail _ h ih => obtain ⟨n, hn⟩ := ih; obtain ⟨m, hm, _⟩ := svc_rank hn h; exact ⟨m, hm⟩

/-- **C91.** The search for services ends, without a crash, if no type is defined in terms of itself and all classes
are found. -/
theorem C91_ends_partial {P : Prog} {b : Bool} {t : Ty} (ha : Acc (fun x y => Needs P y x) (.ty b t))
    (hf : ∀ j, Relation.ReflTransGen (Needs P) (.ty b t) j → Found P j) :
    ∃ N, ∀ fuel, N ≤ fuel → ∀ own val, ∃ st, transfers P fuel own b t val = .ok st := by
  obtain ⟨N, hN⟩ := go_ends ha
  refine ⟨N, fun fuel hle own val => ?_⟩
  have h1 := hN fuel hle val ⟨own.foldl addRec fun _ => 0, [], 0⟩
  have h2 := go_safe fuel _ hf val ⟨own.foldl addRec fun _ => 0, [], 0⟩
  unfold transfers
  revert h1 h2
  cases go P fuel (.ty b t) val ⟨own.foldl addRec fun _ => 0, [], 0⟩ <;> simp

example : Acc (fun x y => Needs svcProg' y x) (.ty false (.use 0)) ∧
    ∀ j, Relation.ReflTransGen (Needs svcProg') (.ty false (.use 0)) j → Found svcProg' j := by
  refine ⟨svc_acc 11 _ rfl, fun j h => ?_⟩
  obtain ⟨n, hn⟩ := svc_found h ⟨11, rfl⟩
  unfold svcRank at hn
  split at hn <;> cases hn <;> simp only [Found] <;> decide +kernel

/-! ## What does not hold -/

/-- What the search for the services of a phylum of the example comes to. -/
def svcSafe : Job → Bool
  | .cls c => c ≤ 6
  | .sig s => s == .none || s == .inst 0 || s == .inst 1 || s == .inst 2 || s == .mult (.inst 1) (.inst 2)
  | .ty _ t => t == .noType || t == .inst 3 || t == .inst 5 || t == .use 1

/-- **C91, refuted for phyla.** A module that extends a phylum: the search never ends, because `PHYLUM` extends
`NULL_PHYLUM`, a phylum without a definition, whose services are those of `PHYLUM`; only a module called `TYPE` is
treated specially.  With the modules as in `base/basic.aps`, for every fuel. -/
theorem C91_phylum_refuted (fuel : Nat) (own : List Decl) (b : Bool) (val : String) :
    transfers svcProg' fuel own b (.use 1) val = .nofuel := by
  have key : ∀ fuel src st st', go svcProg' fuel (.ty true .noType) src st ≠ .ok st' :=
    go_cycle (c := 6) (m := 5) (by decide +kernel) rfl rfl (by decide) rfl rfl rfl (by decide) rfl rfl
  have closed : ∀ j j', Needs svcProg' j j' → svcSafe j = true → svcSafe j' = true := by
    intro j j' h hs
    cases h with
    | @parent c C h1 =>
      obtain ⟨_, h⟩ := svc_cls h1
      simp only [svcSafe, decide_eq_true_eq] at hs
      have : c = 0 ∨ c = 1 ∨ c = 2 ∨ c = 3 ∨ c = 4 ∨ c = 5 ∨ c = 6 := by omega
      rcases this with rfl | rfl | rfl | rfl | rfl | rfl | rfl <;> cases h <;> decide
    | @result c C h1 h2 h3 =>
      obtain ⟨_, h⟩ := svc_cls h1
      simp only [svcSafe, decide_eq_true_eq] at hs
      have : c = 0 ∨ c = 1 ∨ c = 2 ∨ c = 3 ∨ c = 4 ∨ c = 5 ∨ c = 6 := by omega
      rcases this with rfl | rfl | rfl | rfl | rfl | rfl | rfl <;> cases h <;> decide
    | left => simp [svcSafe] at hs; simp [hs, svcSafe]
    | right => simp [svcSafe] at hs; simp [hs, svcSafe]
    | sigInst => simp [svcSafe] at hs; simp [svcSafe]; omega
    | @plain b c hb =>
      cases b
      · rw [show findBasic svcProg' (if false = true then "PHYLUM" else "TYPE") = some 4 by decide +kernel] at hb
        cases hb; rfl
      · rw [show findBasic svcProg' (if true = true then "PHYLUM" else "TYPE") = some 6 by decide +kernel] at hb
        cases hb; rfl
    | inst => simp [svcSafe] at hs; simp [svcSafe]; omega
    | @phylumDecl b u t hu =>
      have : u = 1 := by simpa [svcSafe] using hs
      subst this; have hu : TDef.phylumDecl .noType = _ := hu; cases hu; rfl
    | @typeDecl b u t hu =>
      have : u = 1 := by simpa [svcSafe] using hs
      subst this; have hu : TDef.phylumDecl .noType = _ := hu; cases hu
    | @typeFormal b u t hu =>
      have : u = 1 := by simpa [svcSafe] using hs
      subst this; have hu : TDef.phylumDecl .noType = _ := hu; cases hu
    | @phylumFormal b u t hu =>
      have : u = 1 := by simpa [svcSafe] using hs
      subst this; have hu : TDef.phylumDecl .noType = _ := hu; cases hu
    | @typeRenaming b u t hu =>
      have : u = 1 := by simpa [svcSafe] using hs
      subst this; have hu : TDef.phylumDecl .noType = _ := hu; cases hu
    | _ => simp [svcSafe] at hs
  have safe : ∀ j', Relation.ReflTransGen (Needs svcProg') (.ty b (.use 1)) j' → svcSafe j' = true := by
    intro j' h
    induction h with
    | refl => rfl
    | tail _ h ih => exact closed _ _ h ih
  have found : ∀ j, svcSafe j = true → Found svcProg' j := by
    intro j h
    match j with
    | .cls c =>
      simp only [svcSafe, decide_eq_true_eq] at h
      have : c = 0 ∨ c = 1 ∨ c = 2 ∨ c = 3 ∨ c = 4 ∨ c = 5 ∨ c = 6 := by omega
      rcases this with rfl | rfl | rfl | rfl | rfl | rfl | rfl <;> exact Option.some_ne_none _
    | .sig _ => trivial
    | .ty b .noType => cases b <;> (simp only [Found]; decide +kernel)
    | .ty _ (.remote _) => trivial
    | .ty _ (.priv _) => trivial
    | .ty _ .func => trivial
    | .ty _ (.inst _) => trivial
    | .ty _ (.use _) => trivial
  have h1 := go_safe fuel _ (fun j h => found j (safe j h)) val ⟨own.foldl addRec fun _ => 0, [], 0⟩
  unfold transfers
  match fuel with
  | 0 => rfl
  | fuel + 1 =>
    have h2 := key fuel ("t_" ++ svcProg'.tname 1) ⟨own.foldl addRec fun _ => 0, [], 0⟩
    have e : go svcProg' (fuel + 1) (.ty b (.use 1)) val ⟨own.foldl addRec fun _ => 0, [], 0⟩ =
      go svcProg' fuel (.ty true .noType) ("t_" ++ svcProg'.tname 1) ⟨own.foldl addRec fun _ => 0, [], 0⟩ := rfl
    rw [e] at h1 ⊢
    revert h1 h2
    cases go svcProg' fuel (.ty true .noType) ("t_" ++ svcProg'.tname 1) ⟨own.foldl addRec fun _ => 0, [], 0⟩ <;> simp

/-- **C91, refuted for constructors.** A constructor of the extended type whose name the module uses for a function of
its own: the function is defined again. -/
theorem C91_constructor_refuted : ¬ ∀ (P : Prog) (fuel : Nat) (own : List Decl) (b : Bool) (t : Ty) (val : String) (st : St),
    (∀ a b, P.code a = P.code b → a = b) → transfers P fuel own b t val = .ok st →
    ∀ l ∈ st.out, ∀ d ∈ own, P.code d.name = l.name → l.pre ∉ Defines d.kind := by
  intro h
  have := h svcProg' 20 [⟨"leaf", .functionDecl⟩] false (.use 0) "t_T" _ (fun _ _ h => h) (by with_unfolding_all rfl)
    ⟨.v, "leaf", "t_T"⟩ (by decide +kernel) ⟨"leaf", .functionDecl⟩ (by simp) rfl
  exact this (by decide)

/-- **C91, refuted for procedures.** A procedure of the extended type is not there in the generated class. -/
theorem C91_procedure_refuted : ¬ ∀ (P : Prog) (fuel : Nat) (own : List Decl) (b : Bool) (t : Ty) (val : String) (st : St)
    (d : Decl) (m : Pre), TypeOk P → transfers P fuel own b t val = .ok st → Offers P (.ty b t) d → m ∈ Defines d.kind →
    (∃ e ∈ own, e.name = d.name ∧ m ∈ Defines e.kind) ∨ ∃ l ∈ st.out, l.pre = m ∧ l.name = P.code d.name := by
  intro h
  have := h svcProg' 20 [] false (.use 2) "t_T" _ ⟨"f", .procedureDecl⟩ .v svc_typeOk (by with_unfolding_all rfl)
    (.typeFormal rfl (.sigInst (.own rfl (by decide)))) (by decide)
  rcases this with ⟨e, he, _⟩ | ⟨l, hl, h1, h2⟩
  · cases he
  · revert l; decide +kernel

/-- **C91, refuted for types made with a module that extends its parameter.** With `type S := SYN[…]` and
`module SYN[U :: TINY[]] extends U`, a module that extends `S` takes the constructors from `t_U`, a name of the module
`SYN`. -/
theorem C91_src_refuted : ∃ st, transfers svcProg' 20 [] false (.use 4) "t_S" = .ok st ∧
    (⟨.v, "leaf", "t_U"⟩ : Line) ∈ st.out ∧ ∀ l ∈ st.out, l.name = "leaf" → l.src ≠ "t_S" :=
  ⟨_, by with_unfolding_all rfl, by decide +kernel, by decide +kernel⟩

/-- **C91, refuted for modules called `TYPE`.** The services that a user's module of that name gets from the type it
extends are lost. -/
theorem C91_TYPE_refuted : ∃ st, transfers svcProg 20 [] false (.use 5) "t_X" = .ok st ∧ st.out = [] ∧
    Offers svcProg (.ty false (.use 5)) ⟨"leaf", .constructorDecl⟩ :=
  ⟨_, by with_unfolding_all rfl, by decide +kernel,
    .typeDecl rfl (.inst (.result rfl rfl (.inst (.own rfl (by decide)))))⟩

/-- **C91, refuted for renamed signatures.** A signature that is a renaming is reported as an error, after its services
were transferred. -/
theorem C91_renaming_refuted : ∃ st, transfers svcProg 20 [] false (.use 6) "t_R" = .ok st ∧
    st.out = [⟨.v, "string", "t_R"⟩] ∧ st.errors = 1 :=
  ⟨_, by with_unfolding_all rfl, by decide +kernel, by decide +kernel⟩

end Aps.Props
