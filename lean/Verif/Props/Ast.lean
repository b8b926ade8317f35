import Verif.Proofs.AstCopy
import Verif.Proofs.AstDump

/-!
# C88 – C90: the abstract syntax tree

C88: a traversal visits the whole tree.  C89: the Lisp dump can be read back.  C90: constructor
functions, accessor functions and copying.
-/
namespace Aps.Props
open Aps Aps.Ast

/-! ## A tree to try things on: `x := "a\n" ;` as `normal_assign` inside a block. -/

/-- `type_use(use('T))`, line 3. -/
def astType : Val := .node 1 (opNum .type_use) 3 [.node 2 (opNum .use) 3 [.sym ['T']]]

/-- A definition `def('a|b,true,false)`, line 4. -/
def astDef : Val := .node 3 (opNum .def) 4 [.sym ['a', '|', 'b'], .bool true, .bool false]

/-- `simple(string_const("\"c\\n\""))`, line 5. -/
def astDefault : Val :=
  .node 4 (opNum .simple) 5 [.node 5 (opNum .string_const) 5 [.str ['"', 'c', '\\', 'n', '"']]]

/-- `value_decl(def,type,direction(false,true,false),default)`. -/
def astDecl : Val :=
  .node 6 (opNum .value_decl) 4 [astDef, astType,
    .node 7 (opNum .direction) 4 [.bool false, .bool true, .bool false], astDefault]

theorem astDecl_conforms : Conforms (.ph .Declaration) astDecl := by
  refine conforms_node.2 ⟨.value_decl, rfl, rfl, ?_⟩
  refine .cons (conforms_node.2 ⟨.def, rfl, rfl, ?_⟩) (.cons (conforms_node.2 ⟨.type_use, rfl, rfl, ?_⟩)
    (.cons (conforms_node.2 ⟨.direction, rfl, rfl, ?_⟩)
      (.cons (conforms_node.2 ⟨.simple, rfl, rfl, ?_⟩) .nil)))
  · exact .cons trivial (.cons trivial (.cons trivial .nil))
  · exact .cons (conforms_node.2 ⟨.use, rfl, rfl, .cons trivial .nil⟩) .nil
  · exact .cons trivial (.cons trivial (.cons trivial .nil))
  · exact .cons (conforms_node.2 ⟨.string_const, rfl, rfl, .cons trivial .nil⟩) .nil

theorem astDecl_strings : ∀ s ∈ strings astDecl, StringToken s := by
  intro s hs
  have : s = ['"', 'c', '\\', 'n', '"'] := by
    have h : strings astDecl = [['"', 'c', '\\', 'n', '"']] := rfl
    rw [h] at hs
    simpa using hs
  subst this
  exact .inl ⟨['c', '\\', 'n'], rfl, .plain _ _ (by decide) (fun _ => by decide) (.esc _ _ .nil)⟩

/-! ## C88: traversal -/

/-- **C88** (the whole tree): on a tree that follows the grammar, the traversal is the preorder
walk of the tree: it never ends in the `crashes` error, and whatever the callback does, it is called
on the root, and then, unless it returned the null pointer, on the children from first to last with
the argument it returned for the root, and so on down. -/
theorem C88_traverse {σ α : Type} (f : σ → α → Val → Res (Option α × σ)) (p : Phylum) (v : Val)
    (h : Conforms (.ph p) v) :
    ∃ N, ∀ fuel, N ≤ fuel → ∀ s a, traverse f fuel p s a v = visit f s a v :=
  walks f v _ h p rfl

/-- **C88** (below the root): `traverse_X_skip` does the same for the children without calling the
callback on the root. -/
theorem C88_skip {σ α : Type} (f : σ → α → Val → Res (Option α × σ)) (p : Phylum)
    (ad op line : Nat) (kids : List Val) (h : Conforms (.ph p) (.node ad op line kids)) :
    ∃ N, ∀ fuel, N ≤ fuel → ∀ s a,
      traverseSkip f fuel p s a (.node ad op line kids) = visitAll f s a kids := by
  obtain ⟨c, rfl, rfl, hc⟩ := conforms_node.1 h
  exact skip_node f _ c ad line kids rfl hc (fun x _ => walks f x)

/-- **C88** (which nodes): a callback that always ends is called exactly on the nodes without a
proper ancestor for which it returned the null pointer, in the order of the text. -/
theorem C88_reached {α : Type} (keep : Val → Bool) (pass : α → Val → α) (p : Phylum) (v : Val)
    (h : Conforms (.ph p) v) (a : α) :
    ∃ N, ∀ fuel, N ≤ fuel → ∃ l, traverse (recorder keep pass) fuel p [] a v = .ok l ∧
      l.map Prod.fst = reached keep v := by
  obtain ⟨N, hN⟩ := C88_traverse (recorder keep pass) p v h
  refine ⟨N, fun fuel hf => ?_⟩
  obtain ⟨l, h1, h2⟩ := visit_recorder keep pass v [] a
  exact ⟨l, by rw [hN fuel hf, h1]; rfl, h2⟩

/-- **C88** (each node once): if the callback never returns the null pointer, it is called once on
each node: the sequence of the nodes it is called on is the list of all nodes of the tree, and no
node comes twice in it if no address does. -/
theorem C88_once {α : Type} (pass : α → Val → α) (p : Phylum) (v : Val)
    (h : Conforms (.ph p) v) (a : α) :
    ∃ N, ∀ fuel, N ≤ fuel → ∃ l, traverse (recorder (fun _ => true) pass) fuel p [] a v = .ok l ∧
      l.map Prod.fst = nodes v ∧ (((nodes v).map addrOf).Nodup → (l.map Prod.fst).Nodup) := by
  obtain ⟨N, hN⟩ := C88_reached (fun _ => true) pass p v h a
  refine ⟨N, fun fuel hf => ?_⟩
  obtain ⟨l, h1, h2⟩ := hN fuel hf
  rw [reached_all] at h2
  exact ⟨l, h1, h2, fun hn => by rw [h2]; exact List.Nodup.of_map _ hn⟩

/-- The example is met: eight nodes, all visited, each with the address of its parent. -/
example : traverse (recorder (fun _ => true) (fun _ v => addrOf v)) 9 .Declaration [] none astDecl =
      .ok ((nodes astDecl).zip [none, some 6, some 6, some 1, some 6, some 6, some 4]) ∧
    (nodes astDecl).length = 7 ∧ ((nodes astDecl).map addrOf).Nodup ∧
    Conforms (.ph .Declaration) astDecl :=
  ⟨by with_unfolding_all rfl, rfl, by decide, astDecl_conforms⟩

/-! ## C89: the Lisp dump -/

/-- **C89** (reading back): the dump of a tree that follows the grammar, and whose strings are
tokens, ends without error, and a Lisp reader takes from it, whatever is printed after it, the
expression with the name of the constructor, the line number and the expressions of the children:
symbols in full, whatever characters they have, and the text of strings. -/
theorem C89_dump (p : Phylum) (v : Val) (h : Conforms (.ph p) v)
    (hs : ∀ s ∈ strings v, StringToken s) :
    ∃ out, (∃ N, ∀ fuel, N ≤ fuel → dump fuel (.ph p) v = .ok out) ∧
      ∀ rest, ∃ M, ∀ m, M ≤ m → readItem m (out ++ rest) = some (sexp v, rest) :=
  dumps_root h hs

/-- **C89** (nothing is lost): two trees of one phylum with the same dump are the same but for the
addresses of the nodes and the spelling of the escapes in strings. -/
theorem C89_injective (p : Phylum) (v w : Val) (hv : Conforms (.ph p) v) (hw : Conforms (.ph p) w)
    (sv : ∀ s ∈ strings v, StringToken s) (sw : ∀ s ∈ strings w, StringToken s)
    (out : List Char) (n m : Nat)
    (hn : ∀ fuel, n ≤ fuel → dump fuel (.ph p) v = .ok out)
    (hm : ∀ fuel, m ≤ fuel → dump fuel (.ph p) w = .ok out) : content v = content w := by
  obtain ⟨o1, ⟨N1, h1⟩, r1⟩ := C89_dump p v hv sv
  obtain ⟨o2, ⟨N2, h2⟩, r2⟩ := C89_dump p w hw sw
  have e1 : o1 = out := by
    have a := h1 (max n N1) (by omega)
    rw [hn (max n N1) (by omega)] at a
    cases a; rfl
  have e2 : o2 = out := by
    have a := h2 (max m N2) (by omega)
    rw [hm (max m N2) (by omega)] at a
    cases a; rfl
  subst e1 e2
  obtain ⟨M1, q1⟩ := r1 []
  obtain ⟨M2, q2⟩ := r2 []
  have := (q1 (max M1 M2) (by omega)).symm.trans (q2 (max M1 M2) (by omega))
  simp only [Option.some.injEq, Prod.mk.injEq, and_true] at this
  exact sexp_content v _ w hv hw this

/-- **C89** (the text of strings): the text the reader gets is the text a C compiler takes the token
for, as long as the escapes are `\n`, `\\`, `\"` and `\'`. -/
theorem C89_text (b t : List Char)
    (h : cText (fun c => if c = 't' then none else cEscape c) b = some t) : unescape b = t := by
  refine cText_unescape ?_ b t h
  intro c x hx
  split at hx
  · cases hx
  · unfold cEscape at hx
    split at hx <;> simp_all [eq_comm]

/-- **C89, refuted for other escapes**: a string token with a tab, `"a\tb"`, is read back as
`atb`. -/
theorem C89_tab_refuted :
    let s := ['"', 'a', '\\', 't', 'b', '"']
    StringToken s ∧ cText cEscape (body s) = some ['a', '\t', 'b'] ∧
      ∃ out, dumpString s = .ok out ∧ readItem 9 out = some (.str ['a', 't', 'b'], []) :=
  ⟨.inl ⟨['a', '\\', 't', 'b'], rfl, .plain _ _ (by decide) (fun _ => by decide)
      (.esc _ _ (.plain _ _ (by decide) (fun _ => by decide) .nil))⟩, by decide, _, rfl, by with_unfolding_all rfl⟩

/-- **C89, refuted for other strings**: a string that ends in a backslash, and one that begins with a
double quote and has no other (a file called so), are read past their end. -/
theorem C89_past_end_refuted :
    dumpString ['a', '\\'] = .ub ∧ dumpString ['"', 'a'] = .ub := by decide

/-- The example is met. -/
example : dump 9 (.ph .Declaration) astDecl = .ok
    ("\n(value_decl #4!\n(def #4! aps-boot::|a\\|b| t nil)\n(type_use #3!\n(use #3! aps-boot::|T|))" ++
     "\n(direction #4! nil t nil)\n(simple #5!\n(string_const #5! \"c\n\")))").toList ∧
    Conforms (.ph .Declaration) astDecl ∧ (∀ s ∈ strings astDecl, StringToken s) ∧
    cText (fun c => if c = 't' then none else cEscape c) ['c', '\\', 'n'] = some ['c', '\n'] :=
  ⟨by decide +kernel, astDecl_conforms, astDecl_strings, by decide⟩

/-! ## C90: constructors, accessors, copies -/

/-- **C90** (constructor functions): given arguments of the phyla of its fields, a constructor
function makes a node of its phylum and constructor, with the line number of the moment, and the
accessor function of each field returns the argument given for the field. -/
theorem C90_construct (c : Con) (args : List Val) (e : Env)
    (h : List.Forall₂ (fun ka x => Conforms ka.1 x) c.fields args) :
    ∃ v e', build c args e = .ok (v, e') ∧ Conforms (.ph c.phylum) v ∧
      key c.phylum v = .ok c ∧ tnodePhylum v = .ok (some c.phylum) ∧
      lineOf v = some e.line ∧ addrOf v = some e.next ∧ e'.next = e.next + 1 ∧
      List.Forall₂ (fun ka x => get ka.2 v = .ok x) c.fields args := by
  refine ⟨.node e.next (opNum c) e.line args, { e with next := e.next + 1 }, ?_,
    conforms_node.2 ⟨c, rfl, rfl, h⟩, ?_, ?_, rfl, rfl, rfl, gets c _ _ args h.length_eq⟩
  · rw [build_eq, assertAll_ok.2 (h.imp fun _ _ h => conforms_passes h)]; rfl
  · rw [key_node, if_pos rfl]
  · simp only [tnodePhylum, phylum_table]

/-- **C90** (bad arguments): a constructor function called with the arguments the types of C admit
makes a node if and only if the argument for each field of a phylum is a node of that phylum;
otherwise (a null pointer, a node of another phylum) the program stops with an error. -/
theorem C90_checked (c : Con) (args : List Val) (e : Env)
    (h : List.Forall₂ (fun ka x => CTyped ka.1 x) c.fields args) :
    ((∀ ka ∈ c.fields.zip args, ∀ p, ka.1.1 = .ph p → tnodePhylum ka.2 = .ok (some p)) →
      ∃ r, build c args e = .ok r) ∧
    ((∃ ka ∈ c.fields.zip args, ∃ p, ka.1.1 = .ph p ∧ tnodePhylum ka.2 ≠ .ok (some p)) →
      build c args e = .stop) := by
  have key : ∀ (k : Kind) (x : Val), CTyped k x →
      (Passes k x ↔ ∀ p, k = .ph p → tnodePhylum x = .ok (some p)) := by
    intro k x hk
    cases k with
    | leaf l => simp [Passes]
    | ph p =>
      simp only [Passes, Kind.ph.injEq, forall_eq']
      constructor
      · rintro ⟨d, rfl, a, line, kids, rfl⟩
        simp only [tnodePhylum, phylum_table]
      · intro hp
        cases x with
        | node a op line kids =>
          simp only [tnodePhylum, Res.ok.injEq] at hp
          obtain ⟨d, _, h1, h2⟩ := phylum_table_only _ (find_mem hp)
          simp only at h1 h2
          exact ⟨d, h2, a, line, kids, by rw [h1]⟩
        | _ => simp [tnodePhylum] at hp
  have hz : (List.Forall₂ (fun ka x => Passes ka.1 x) c.fields args) ↔
      ∀ ka ∈ c.fields.zip args, ∀ p, ka.1.1 = .ph p → tnodePhylum ka.2 = .ok (some p) := by
    generalize c.fields = ks at h
    induction h with
    | nil => simp
    | @cons ka x ks xs hx _ ih =>
      simp only [List.forall₂_cons, List.zip_cons_cons, List.forall_mem_cons, ih, key _ _ hx]
  constructor
  · intro hp
    rw [build_eq, assertAll_ok.2 (hz.2 hp)]
    exact ⟨_, rfl⟩
  · rintro ⟨ka, hm, p, h1, h2⟩
    rw [build_eq, assertAll_stop h (fun hall => h2 (hz.1 hall ka hm p h1))]
    rfl

/-- **C90** (accessors of other constructors): calling the accessor of a field on a node that does
not have the field stops the program with an error, whatever the node. -/
theorem C90_wrong_accessor (c d : Con) (hcd : d ≠ c) (i : Nat) (ka : Kind × Acc)
    (hf : c.fields[i]? = some ka) (a line : Nat) (kids : List Val) :
    get ka.2 (.node a (opNum d) line kids) = .stop := by
  rw [get_at hf, if_neg hcd]

/-- **C90** (trees follow the grammar): whatever a program makes by calling constructor functions
is, unless it is the null pointer, a tree that follows the grammar in all its parts. -/
theorem C90_made (v : Val) (h : Made v) : v = .null ∨ ∃ k, Conforms k v :=
  made_conforms h

/-- **C90** (copies): the copy of a tree that follows the grammar is a tree of the same phylum
with the same constructors, symbols, strings and booleans; all its nodes are new, no two of them are
the same, and they all have the line number at which the lexer is at the moment. -/
theorem C90_copy (p : Phylum) (v : Val) (h : Conforms (.ph p) v) :
    ∃ N, ∀ fuel, N ≤ fuel → ∀ e, ∃ v' e', copy fuel (.ph p) e v = .ok (v', e') ∧
      Conforms (.ph p) v' ∧ shape v' = shape v ∧
      (∀ x ∈ nodes v', lineOf x = some e.line ∧
        ∃ a, addrOf x = some a ∧ e.next ≤ a ∧ a < e'.next) ∧
      ((nodes v').map addrOf).Nodup := by
  obtain ⟨N, hN⟩ := copies v _ h
  refine ⟨N, fun fuel hf e => ?_⟩
  obtain ⟨v', e', h1, h2, h3⟩ := hN fuel hf e
  exact ⟨v', e', h1, h2, h3.shape_eq, h3.fresh, h3.distinct⟩

/-- **C90, refuted for line numbers**: a copy does not have the line numbers of the original, and
so an error about it names another line. -/
theorem C90_copy_line_refuted : ∃ v' e', copy 9 (.ph .Type) ⟨100, 77⟩ astType = .ok (v', e') ∧
    lineOf astType = some 3 ∧ lineOf v' = some 77 :=
  ⟨_, _, by with_unfolding_all rfl, rfl, rfl⟩

/-- The example is met: arguments of the right phyla, ones of a wrong phylum, and a tree made by
calls. -/
example : List.Forall₂ (fun ka x => Conforms ka.1 x) Con.type_use.fields
      [.node 2 (opNum .use) 3 [.sym ['T']]] ∧
    build .type_use [astType] ⟨9, 9⟩ = .stop ∧ build .type_use [.null] ⟨9, 9⟩ = .stop ∧
    get .use_name astType = .stop ∧ get .type_use_use astType =
      .ok (.node 2 (opNum .use) 3 [.sym ['T']]) ∧ Made astType := by
  have hu : Made (.node 2 (opNum .use) 3 [.sym ['T']]) :=
    .call .use [.sym ['T']] ⟨2, 3⟩ _ ⟨3, 3⟩ (by intro x hx; simp at hx; subst hx; exact .sym _)
      (.cons trivial .nil) (by with_unfolding_all rfl)
  refine ⟨.cons (conforms_node.2 ⟨.use, rfl, rfl, .cons trivial .nil⟩) .nil,
    by with_unfolding_all rfl, by with_unfolding_all rfl, by with_unfolding_all rfl,
    by with_unfolding_all rfl, ?_⟩
  exact .call .type_use [.node 2 (opNum .use) 3 [.sym ['T']]] ⟨1, 3⟩ _ ⟨2, 3⟩
    (by intro x hx; simp at hx; subst hx; exact hu) (.cons trivial .nil) (by with_unfolding_all rfl)

end Aps.Props
