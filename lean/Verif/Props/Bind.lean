import Verif.Proofs.BindDup
set_option linter.unusedVariables false
/-!
# C58: name binding

The specification is in `Spec/Bind.lean`: `Resolves` says what a name stands for given the frames around it, `unitUses` lists the uses
of a program with the frames around each (`[unitFrame us, pubsL basic]` is outermost: the program with what it names with `with`, and
the prelude), `UseAt.Means` is what such a use stands for.
-/
namespace Aps.Props
open Aps.Bind

/-- A program as the parser builds it: every use is a node of its own, formals are flat. -/
structure Parsed (us : List Bind.Unit) : Prop where
  wf : wfU us
  nodup : (unitIds us).Nodup

/-- There is at least one name in scope: the prelude exports something. -/
def HasNames (basic : List Node) (us : List Bind.Unit) : Prop := ∃ i ∈ unitFrame us ++ pubsL basic, i.name ≠ none

/-- The frames around a program. -/
def top (basic : List Node) (us : List Bind.Unit) : Chain := [unitFrame us, pubsL basic]

theorem rep_nil : Rep [] [] := fun _ _ => rfl

theorem mem_named {i : Info} {f : Frame} (hi : i ∈ f) (hn : i.name ≠ none) : i ∈ named f := by
  simp only [named, List.mem_reverse, List.mem_filter]
  refine ⟨hi, ?_⟩
  cases hx : i.name
  · exact absurd hx hn
  · rfl

theorem scope_nonempty (basic : List Node) (us : List Bind.Unit) (hn : HasNames basic us) :
    (getU us (pubBs 0 basic ([], ⟨[], [], 1⟩))).1.isEmpty = false := by
  obtain ⟨i, hi, hnm⟩ := hn
  have e2 := (pubBs_adds 0 basic ([], ⟨[], [], 1⟩)).1
  have e1 := (getU_adds us (pubBs 0 basic ([], ⟨[], [], 1⟩))).1
  cases h : (getU us (pubBs 0 basic ([], ⟨[], [], 1⟩))).1 with
  | cons _ _ => rfl
  | nil =>
    rw [h] at e1
    have e1' : named (unitFrame us) = [] ∧ infos (pubBs 0 basic ([], ⟨[], [], 1⟩)).1 = [] := by
      have := e1.symm; simp only [infos, List.map_nil, List.append_eq_nil_iff] at this; exact this
    rw [e1'.2] at e2
    have e2' : named (pubsL basic) = [] := by
      have := e2.symm; simp only [infos, List.map_nil, List.append_eq_nil_iff] at this; exact this.1
    rcases List.mem_append.1 hi with hi | hi
    · have := mem_named hi hnm
      rw [e1'.1] at this; cases this
    · have := mem_named hi hnm
      rw [e2'] at this; cases this

theorem bind_visit (C : Services) (basic : List Node) (us : List Bind.Unit) (hp : Parsed us) (hn : HasNames basic us) :
    Visit C (unitIds us) (unitUses C true us (top basic us)) (unitUses C false us (top basic us)) ⟨[], [], 1⟩ (bindProgram C basic us) := by
  have a := pubBs_adds 0 basic ([], ⟨[], [], 1⟩)
  have b := getU_adds us (pubBs 0 basic ([], ⟨[], [], 1⟩))
  have r := (Rep.push (show Rep ([], (⟨[], [], 1⟩ : St)).1 [] from rep_nil) a).push b
  have hne := scope_nonempty basic us hn
  simp only [bindProgram, hne]
  have fr : Fresh (unitIds us) ⟨[], [], 1⟩ := fun u _ => rfl
  exact ((visitU us r hp.wf hp.nodup _ ((fr.same a.2).same b.2)).pre b.2).pre a.2

/-- Every plain use is bound to the declaration its name stands for: the last one of the innermost scope around it that declares the name
in the right namespace; and it is bound to nothing if there is none. -/
theorem C58_plain (C : Services) (basic : List Node) (us : List Bind.Unit) (hp : Parsed us) (hn : HasNames basic us)
    (x : UseAt) (hx : x ∈ unitUses C true us (top basic us)) (hq : x.qualifier = none) (d : Nat) :
    (bindProgram C basic us).decl x.u = some d ↔ Resolves x.chain x.nm x.ns d := by
  have := (bind_visit C basic us hp hn).plain x hx hq
  rw [this, res_iff]
  show (res x.chain x.nm x.ns <|> none) = some d ↔ _
  cases res x.chain x.nm x.ns <;> simp

/-- Every use that stands for a declaration (also a qualified one: its type is looked up first, then the services of that) is
bound to it. -/
theorem C58_bound (C : Services) (basic : List Node) (us : List Bind.Unit) (hp : Parsed us) (hn : HasNames basic us)
    (x : UseAt) (hx : x ∈ unitUses C true us (top basic us)) (d : Nat) (hm : x.Means C d) :
    (bindProgram C basic us).decl x.u = some d := by
  cases hq : x.qualifier with
  | none =>
    refine (C58_plain C basic us hp hn x hx hq d).2 ?_
    simpa only [UseAt.Means, hq] using hm
  | some _ => exact (bind_visit C basic us hp hn).qual x hx (by rw [hq]; simp) d hm

/-- Which declarations answer to a use: in each of the four kinds of place exactly the kinds of declaration that the language has for it. -/
theorem C58_namespaces (nm : Nat) (i : Info) :
    (answers nm nameSignature i = true ↔ i.name = some nm ∧ i.kind ∈ signatureKinds) ∧
    (answers nm nameType i = true ↔ i.name = some nm ∧ i.kind ∈ typeKinds) ∧
    (answers nm namePattern i = true ↔ i.name = some nm ∧ i.kind ∈ patternKinds) ∧
    (answers nm nameValue i = true ↔ i.name = some nm ∧ i.kind ∈ valueKinds) := by
  obtain ⟨id, name, kind, pub⟩ := i
  simp only [answers, Bool.and_eq_true, beq_iff_eq]
  cases kind <;> simp [namespaces, nameSignature, nameType, namePattern, nameValue, signatureKinds, typeKinds, patternKinds, valueKinds]

/-- Unbound names: an error is reported for exactly the uses that stand for nothing, where the types of a function's formals do not see its results and
the formals of a class do not see its result type. -/
theorem C58_unbound (C : Services) (basic : List Node) (us : List Bind.Unit) (hp : Parsed us) (hn : HasNames basic us) (u : Nat) :
    Err.unbound u ∈ (bindProgram C basic us).errs ↔
      ∃ x ∈ unitUses C false us (top basic us), x.u = u ∧ ¬ ∃ d, x.Means C d := by
  have v := bind_visit C basic us hp hn
  constructor
  · intro h
    rcases v.errs' u h with h' | ⟨h', -⟩
    · cases h'
    · obtain ⟨x, hx, rfl⟩ := unitIds_uses C false us (top basic us) u h'
      refine ⟨x, hx, rfl, fun hm => ?_⟩
      have := (v.good (fun _ _ => rfl) x hx hm).2 h
      cases this
  · rintro ⟨x, hx, rfl, hm⟩
    exact v.bad (fun _ _ => rfl) x hx hm

/-- Duplicates, in part: if two declarations of one scope (a block, a list of formals, …) clash, and that scope contains no polymorphic scope, an
error is reported. -/
theorem C58_duplicates_partial (C : Services) (basic : List Node) (us : List Bind.Unit) (hn : HasNames basic us)
    (ds : List Node) (hd : ds ∈ openedU us) (hp : noPolyL ds) (l1 l2 l3 : List Info) (a b : Info)
    (hf : declsL ds = l1 ++ a :: (l2 ++ b :: l3)) (hc : Clash a b) :
    Err.dup b.id a.id ∈ (bindProgram C basic us).errs := by
  have he' := scope_nonempty basic us hn
  obtain ⟨s, k⟩ := openedU_seen C us ds hd (getU us (pubBs 0 basic ([], ⟨[], [], 1⟩))).1 (getU us (pubBs 0 basic ([], ⟨[], [], 1⟩))).2
  simp only [bindProgram, he']
  refine k _ ?_
  rw [getBs_addAll 0 ds hp s, hf]
  exact addAll_dup 0 l1 l2 l3 a b hc s

/-! ### A case -/

/-- A value or a formal, a type. -/
def val (id nm : Nat) (cs : List Node) : Node := .decl ⟨id, some nm, .valueDecl, true⟩ cs
def fml (id nm : Nat) (ty : Node) : Node := .decl ⟨id, some nm, .formal, true⟩ [ty]
def typ (id nm : Nat) (cs : List Node) : Node := .decl ⟨id, some nm, .typeDecl, true⟩ cs

/-- The prelude declares the type `10`; the type `11` has the service `20`. -/
def c58prelude : List Node := [typ 100 10 []]
def c58svc : Services := ⟨fun t => if t = 101 then [⟨200, some 20, .valueDecl, true⟩] else [], fun _ => [], 999⟩

/-- `type T11 …; function f(x : T10) r : T11 { val y := x + T11$v20; val z := w }`. -/
def c58prog : List Bind.Unit :=
  [.declU (typ 101 11 []),
   .declU (.func ⟨102, some 30, .functionDecl, true⟩ [fml 103 31 (.use 1 nameType 10)] [fml 104 32 (.use 2 nameType 11)]
     [.block [val 105 33 [.use 3 nameValue 31, .qual 4 nameValue 20 5 11], val 106 34 [.use 6 nameValue 99]]])]

theorem c58_parsed : Parsed c58prog where
  wf := by simp [c58prog, wfU, wf, wfL, flat, flatL, fml, val, typ]
  nodup := by simp [c58prog, unitIds, ids, idsL, fml, val, typ]

theorem c58_names : HasNames c58prelude c58prog := ⟨⟨101, some 11, .typeDecl, true⟩, by simp [c58prog, unitFrame, decls, typ], by simp⟩

/-- The uses find the prelude's type, the formal, the type and its service; the name `99` is reported. -/
example :
    (bindProgram c58svc c58prelude c58prog).decl 1 = some 100 ∧ (bindProgram c58svc c58prelude c58prog).decl 2 = some 101 ∧
    (bindProgram c58svc c58prelude c58prog).decl 3 = some 103 ∧ (bindProgram c58svc c58prelude c58prog).decl 4 = some 200 ∧
    (bindProgram c58svc c58prelude c58prog).decl 5 = some 101 ∧ (bindProgram c58svc c58prelude c58prog).errs = [.unbound 6] := by
  decide +kernel

/-- The hypotheses of the theorems hold for it. -/
example : ∃ x ∈ unitUses c58svc true c58prog (top c58prelude c58prog), x.u = 4 ∧ x.qualifier = some 11 ∧ x.Means c58svc 200 := by
  refine ⟨⟨4, nameValue, 20, some 11, [[⟨105, some 33, .valueDecl, true⟩, ⟨106, some 34, .valueDecl, true⟩], [⟨104, some 32, .formal, true⟩],
    [⟨103, some 31, .formal, true⟩], unitFrame c58prog, pubsL c58prelude]⟩, ?_, rfl, rfl, 101, ?_, ?_⟩
  · simp [c58prog, unitUses, uses, usesL, decls, declsL, fml, val, typ, top]
  · rw [res_iff]; decide +kernel
  · rw [res_iff]; decide +kernel

/-- Two clashing declarations of a block, and the error. -/
def c58twice : List Bind.Unit := [.declU (.func ⟨1, some 30, .functionDecl, true⟩ [] [] [.block [val 2 40 [], val 3 41 [], val 4 40 []]])]
example : ∃ ds ∈ openedU c58twice, noPolyL ds ∧ ∃ a b l1 l2 l3, declsL ds = l1 ++ a :: (l2 ++ b :: l3) ∧ Clash a b :=
  ⟨[val 2 40 [], val 3 41 [], val 4 40 []], by simp [c58twice, openedU, opened, openedL, val], by simp [noPolyL, noPoly, val],
    ⟨2, some 40, .valueDecl, true⟩, ⟨4, some 40, .valueDecl, true⟩, [], [⟨3, some 41, .valueDecl, true⟩], [],
    by simp [declsL, decls, val], 40, rfl, rfl, by decide⟩
example : (bindProgram c58svc c58prelude c58twice).errs = [.dup 4 2] := by decide +kernel

/-! ### What goes wrong -/

/-- A declaration of an inner block that hides one of an outer scope is reported as a duplicate, although the two are in different scopes
and the use is bound to the inner one. -/
theorem C58_hiding_refuted : ∃ us, Parsed us ∧ HasNames [] us ∧ openedU us = [[], [], [val 2 40 [.use 1 nameValue 40]]] ∧
    (bindProgram c58svc [] us).decl 1 = some 2 ∧ (bindProgram c58svc [] us).errs = [.dup 2 1] := by
  refine ⟨[.declU (val 1 40 []), .declU (.func ⟨3, some 30, .functionDecl, true⟩ [] [] [.block [val 2 40 [.use 1 nameValue 40]]])], ⟨?_, ?_⟩, ?_, ?_, ?_, ?_⟩
  · simp [wfU, wf, wfL, flat, flatL, val]
  · simp [unitIds, ids, idsL, val]
  · exact ⟨⟨1, some 40, .valueDecl, true⟩, by simp [unitFrame, decls, val], by simp⟩
  · simp [openedU, opened, openedL, val]
  · decide +kernel
  · decide +kernel

/-- Two clashing declarations of one block are not reported if there is a (non-empty) polymorphic scope between them. -/
theorem C58_poly_refuted : ∃ us ds a b l1 l2 l3, Parsed us ∧ HasNames [] us ∧ ds ∈ openedU us ∧ declsL ds = l1 ++ a :: (l2 ++ b :: l3) ∧ Clash a b ∧
    (bindProgram c58svc [] us).errs = [] := by
  refine ⟨[.declU (.func ⟨1, some 30, .functionDecl, true⟩ [] []
      [.block [val 2 40 [], .poly ⟨3, none, .polymorphic, true⟩ [] [val 4 41 []], val 5 40 []]])],
    [val 2 40 [], .poly ⟨3, none, .polymorphic, true⟩ [] [val 4 41 []], val 5 40 []],
    ⟨2, some 40, .valueDecl, true⟩, ⟨5, some 40, .valueDecl, true⟩, [], [⟨3, none, .polymorphic, true⟩, ⟨4, some 41, .valueDecl, true⟩], [],
    ⟨?_, ?_⟩, ?_, ?_, ?_, ⟨40, rfl, rfl, by decide⟩, ?_⟩
  · simp [wfU, wf, wfL, flat, flatL, val]
  · simp [unitIds, ids, idsL, val]
  · exact ⟨⟨1, some 30, .functionDecl, true⟩, by simp [unitFrame, decls], by simp⟩
  · simp [openedU, opened, openedL, val]
  · simp [declsL, decls, val]
  · decide +kernel

/-- With nothing in scope the program is not looked at: an undeclared name is not reported. -/
theorem C58_empty_refuted : ∃ us, Parsed us ∧ (∃ x ∈ unitUses c58svc false us (top [] us), ¬ ∃ d, x.Means c58svc d) ∧
    (bindProgram c58svc [] us).errs = [] := by
  refine ⟨[.declU (.decl ⟨1, none, .valueDecl, true⟩ [.use 1 nameType 50])], ⟨?_, ?_⟩, ⟨⟨1, nameType, 50, none, [[⟨1, none, .valueDecl, true⟩], []]⟩, ?_, ?_⟩, ?_⟩
  · simp [wfU, wf, wfL]
  · simp [unitIds, ids, idsL]
  · simp [unitUses, uses, usesL, unitFrame, decls, pubsL, top]
  · rintro ⟨d, h⟩
    have h' := (res_iff _ _ _ _).1 (show Resolves _ _ _ _ from h)
    revert h'
    have : res [[⟨1, none, .valueDecl, true⟩], []] 50 nameType = none := by decide +kernel
    rw [this]; simp
  · decide +kernel

end Aps.Props
