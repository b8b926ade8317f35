import Verif.Proofs.DynGenRun
set_option linter.unusedVariables false
/-!
# C47: generated dynamic evaluators compute what the equations say

`dumpTlms` is the generator, `text = renderFun glob f` says that `f` is the program printed, and `call` runs
it.  `value … (actives …)` (Spec/DynGen.lean) is the meaning of the equations.  `glob` is set for
collections and for variables: the function then loops over the nodes of each phylum; otherwise it looks
at the node itself (synthesized) or its parent (inherited), so that all matches see the same nodes.
-/
namespace Aps.Props
open Aps.DynGen
variable {V : Type}

/-- If all matches look at the same nodes, the phyla do not matter. -/
theorem execFun_const {W : World V} {lang : Lang} {native : Pat V → V → Env V → Option (Env V)} {j : Job V} {nodes : Nat → List V}
    {ns : List V} (hn : ∀ ph, nodes ph = ns) : ∀ (f f' : List (Nat × Arm V)), f.map (·.2) = f'.map (·.2) → ∀ ρ acc,
    execFun W lang native j nodes f ρ acc = execFun W lang native j nodes f' ρ acc
  | [], [], _, _, _ => rfl
  | [], _ :: _, h, _, _ => by simp at h
  | _ :: _, [], h, _, _ => by simp at h
  | (ph, t) :: f, (ph', t') :: f', h, ρ, acc => by
    simp only [List.map_cons, List.cons.injEq] at h
    obtain ⟨rfl, h⟩ := h
    simp only [execFun, hn]
    congr 1
    funext r
    cases r with
    | ret v => rfl
    | go acc => exact execFun_const hn f f' h ρ acc

/-- From the text to the values, for any printer of patterns that prints them right. -/
theorem gen_correct {W : World V} {lang : Lang} {native : Pat V → V → Env V → Option (Env V)} {pr : Printer V} {P : Pat V → Prop}
    (R : Right W lang native pr P) {ts : List (Tlm V)} {d : Nat} {glob : Bool}
    (hp : ∀ t ∈ ts, P t.pat ∧ patsB P t.body) (hc : ∀ t ∈ ts, covered lang d t.body)
    (he : (dumpTlms lang pr d glob ts Gen.start).err = false) :
    (∃ f, (dumpTlms lang pr d glob ts Gen.start).out = renderFun glob f) ∧
    ∀ f, (dumpTlms lang pr d glob ts Gen.start).out = renderFun glob f →
      ∀ (col : Bool) (anode : V) (deft : Option V) (nodes : Nat → List V) (ρ : Env V),
        (glob = false → ∃ ns, ∀ ph, nodes ph = ns) → (col = true → deft.isSome = true) →
        call W lang native ⟨col, anode⟩ deft nodes f ρ =
          match value W col deft (actives W d anode nodes ρ ts) with
          | some v => .ok v
          | none => .stop := by
  obtain ⟨f, h1, h2⟩ := dumpTlms_text ts he
  refine ⟨⟨f, h2⟩, fun f' h' col anode deft nodes ρ hn hd => ?_⟩
  have r := run_call (j := ⟨col, anode⟩) R nodes ts f h1 (fun t ht => ⟨(hp t ht).1, (hp t ht).2, hc t ht⟩) ρ deft hd
  rw [h2] at h'
  cases glob with
  | true =>
    obtain rfl := renderFun_true_inj f f' h'
    exact r
  | false =>
    obtain ⟨ns, hns⟩ := hn rfl
    refine Eq.trans ?_ r
    simp only [call]
    rw [execFun_const hns f' f (renderFun_false_inj f f' h').symm]

/-- **C47** (C++): the function generated for an attribute or a variable computes, at every node and for all
values of the variables, exactly the value that the equations give: the combination of all the values given
for a collection, otherwise the value of the first active equation, otherwise the default,
otherwise it throws.  Never anything undefined. -/
theorem C47_cpp (W : World V) (ar : Nat → Nat) (L : Lawful W ar) (native : Pat V → V → Env V → Option (Env V))
    (ts : List (Tlm V)) (d : Nat) (glob : Bool)
    (hp : ∀ t ∈ ts, patOk ar t.pat ∧ patsB (patOk ar) t.body) (hc : ∀ t ∈ ts, covered .cpp d t.body)
    (he : (dumpTlms .cpp (cppPrinter ar) d glob ts Gen.start).err = false) :
    (∃ f, (dumpTlms .cpp (cppPrinter ar) d glob ts Gen.start).out = renderFun glob f) ∧
    ∀ f, (dumpTlms .cpp (cppPrinter ar) d glob ts Gen.start).out = renderFun glob f →
      ∀ (col : Bool) (anode : V) (deft : Option V) (nodes : Nat → List V) (ρ : Env V),
        (glob = false → ∃ ns, ∀ ph, nodes ph = ns) → (col = true → deft.isSome = true) →
        call W .cpp native ⟨col, anode⟩ deft nodes f ρ =
          match value W col deft (actives W d anode nodes ρ ts) with
          | some v => .ok v
          | none => .stop :=
  gen_correct (fun p c b h hk n ρ => cppArm L hk h n ρ) hp hc he

/-- **C47** (Scala): patterns become Scala patterns (taken to mean the same).  In Scala every top-level match is printed
inside a context of its own (`aps2scala/dyn-impl.cc:514-525`), which is the case `glob = true`; `nodes ph` is then the
one node looked at, if it belongs to `ph`. -/
theorem C47_scala (W : World V) (pr : Printer V) (ts : List (Tlm V)) (d : Nat) (glob : Bool)
    (hc : ∀ t ∈ ts, covered .scala d t.body)
    (he : (dumpTlms .scala pr d glob ts Gen.start).err = false) :
    (∃ f, (dumpTlms .scala pr d glob ts Gen.start).out = renderFun glob f) ∧
    ∀ f, (dumpTlms .scala pr d glob ts Gen.start).out = renderFun glob f →
      ∀ (col : Bool) (anode : V) (deft : Option V) (nodes : Nat → List V) (ρ : Env V),
        (glob = false → ∃ ns, ∀ ph, nodes ph = ns) → (col = true → deft.isSome = true) →
        call W .scala (pmatch W) ⟨col, anode⟩ deft nodes f ρ =
          match value W col deft (actives W d anode nodes ρ ts) with
          | some v => .ok v
          | none => .stop := by
  have pt : ∀ b : List (Stmt V), patsB (fun _ => True) b := by
    intro b
    exact (patsB_true b)
  exact gen_correct (P := fun _ => True) (fun p c b h hk n ρ => rfl) (fun t ht => ⟨trivial, pt _⟩) hc he
where
  patsS_true : ∀ s : Stmt V, patsS (fun _ => True) s
    | .assign _ _ => trivial
    | .ite _ t e => ⟨patsB_true t, patsB_true e⟩
    | .cases _ ms b => ⟨patsM_true ms, patsB_true b⟩
    | .fors _ ms => patsM_true ms
    | .forin _ _ b => patsB_true b
    | .decl _ _ _ => trivial
  patsB_true : ∀ b : List (Stmt V), patsB (fun _ => True) b
    | [] => trivial
    | s :: ss => ⟨patsS_true s, patsB_true ss⟩
  patsM_true : ∀ ms : List (Pat V × List (Stmt V)), patsM (fun _ => True) ms
    | [] => trivial
    | (_, b) :: ms => ⟨trivial, patsB_true b, patsM_true ms⟩

/-- **C47** (local attributes, C++, `dyn-impl.cc:354-432`): the function of a local runs the block the local is in. -/
theorem C47_local (W : World V) (ar : Nat → Nat) (L : Lawful W ar) (native : Pat V → V → Env V → Option (Env V))
    (b : List (Stmt V)) (d : Nat) (hp : patsB (patOk ar) b) (hc : covered .cpp d b)
    (he : (dumpBlock .cpp (cppPrinter ar) d b Gen.start).err = false) :
    (∃ cs, (dumpBlock .cpp (cppPrinter ar) d b Gen.start).out = renders cs) ∧
    ∀ cs, (dumpBlock .cpp (cppPrinter ar) d b Gen.start).out = renders cs →
      ∀ (col : Bool) (anode : V) (deft : Option V) (ρ : Env V), (col = true → deft.isSome = true) →
        ((execs W .cpp native ⟨col, anode⟩ cs ρ (deft.getD anode)).bind (finish ⟨col, anode⟩ deft)) =
          match value W col deft (active W d anode b ρ) with
          | some v => .ok v
          | none => .stop := by
  obtain ⟨cs, h1, h2⟩ := dumpBlock_emits b Gen.start (Nat.le_refl _) he
  have h2' : (dumpBlock .cpp (cppPrinter ar) d b Gen.start).out = renders cs := by
    rcases h2 with ⟨e, e'⟩ | ⟨_, os, e, e'⟩
    · rw [e', e]; rfl
    · rw [e']
      simp only [Gen.start, List.drop_nil, toksOf, Option.some.injEq] at e
      subst e; rfl
  refine ⟨⟨cs, h2'⟩, fun cs' h' col anode deft ρ hd => ?_⟩
  rw [h2'] at h'
  obtain ⟨rfl, -⟩ := renders_inj cs cs' [] [] (by rw [h'])
  rw [run (j := ⟨col, anode⟩) (fun p c b h hk n ρ => cppArm L hk h n ρ) b cs h1 hp hc ρ _]
  simp only [Res.bind]
  cases col with
  | true =>
    obtain ⟨v, rfl⟩ := Option.isSome_iff_exists.1 (hd rfl)
    simp [flow, finish, value]
  | false =>
    cases active W d anode b ρ with
    | nil => simp only [flow, finish, value]; cases deft <;> rfl
    | cons v l => simp [flow, finish, value]

/-! ### Cases where the condition fails -/

/-- Small values: a number, or a node with a constructor and fields, or a sequence. -/
inductive T where
  | num (n : Nat)
  | node (c : Nat) (l : List T)
  | seq (l : List T)

/-- The world of these values. -/
def tw : World T where
  typeOf := fun _ => 0
  consOf := fun | .node c _ => c | _ => 99
  fields := fun | .node _ l => l | _ => []
  elems := fun | .seq l => l | _ => []
  mkseq := .seq
  same := fun
    | .num a, .num b => a == b
    | .node a _, .node b _ => a == b
    | _, _ => false
  truth := fun | .num 0 => false | _ => true
  combine := fun
    | .num a, .num b => .num (a + b)
    | a, _ => a

/-- Value of a variable. -/
def num (n : Nat) : Ex T := fun _ => .num n

/-- `case v0 begin match p: other := 1; match p': d := 2; end` in a top-level match: the first match has nothing to
do with `d` (number 7). -/
def skipTlm : Tlm T :=
  ⟨0, .var 0, [.cases (fun ρ => ρ 0) [(.wild, [.assign (.value 8) (num 1)]), (.wild, [.assign (.value 7) (num 2)])] []]⟩

/-- The "BUG" of `dyn-impl.cc:76-77`: a match without an equation for `d` is not printed, so that a later match is
taken in its place: the variable gets 2 where no equation is active and the default is 0. -/
theorem C47_skipped_match_refuted :
    ∃ f, (dumpTlms .cpp (cppPrinter fun _ => 0) 7 true [skipTlm] Gen.start).out = renderFun true f ∧
      (dumpTlms .cpp (cppPrinter fun _ => 0) 7 true [skipTlm] Gen.start).err = false ∧
      call tw .cpp (pmatch tw) ⟨false, .num 0⟩ (some (.num 0)) (fun _ => [.num 5]) f (fun _ => .num 0) = .ok (.num 2) ∧
      value tw false (some (.num 0)) (actives tw 7 (.num 0) (fun _ => [.num 5]) (fun _ => .num 0) [skipTlm]) = some (.num 0) := by
  exact ⟨[(0, .var 0, .tt, [(0, .node)], [.caseb (fun ρ => ρ 0) [(.wild, .tt, [], [.asg none (num 2)])] []])],
    rfl, rfl, rfl, rfl⟩

/-- `case v0 begin match 0: d := 2; end` in a top-level match. -/
def errTlm : Tlm T :=
  ⟨0, .var 0, [.cases (fun ρ => ρ 0) [(.call 1 [], [.assign (.value 7) (num 2)])] []]⟩

/-- In Scala, a case without a printed default throws (`scala.MatchError`) when nothing matches; the value is
the default 0. -/
theorem C47_scala_no_default_refuted :
    ∃ f, (dumpTlms .scala (fun _ => some (.tt, [])) 7 true [errTlm] Gen.start).out = renderFun true f ∧
      (dumpTlms .scala (fun _ => some (.tt, [])) 7 true [errTlm] Gen.start).err = false ∧
      call tw .scala (pmatch tw) ⟨false, .num 0⟩ (some (.num 0)) (fun _ => [.num 5]) f (fun _ => .num 0) = .stop ∧
      value tw false (some (.num 0)) (actives tw 7 (.num 0) (fun _ => [.num 5]) (fun _ => .num 0) [errTlm]) = some (.num 0) := by
  exact ⟨[(0, .var 0, .tt, [], [.caseb (fun ρ => ρ 0) [(.call 1 [], .tt, [], [.asg none (num 2)])] []])],
    rfl, rfl, rfl, rfl⟩

/-- `for v0 begin match ?: d := 2; end` in a top-level match. -/
def forTlm : Tlm T := ⟨0, .var 0, [.fors (fun ρ => ρ 0) [(.wild, [.assign (.value 7) (num 2)])]]⟩

/-- In Scala, the generator prints a `for` with matches in C++, without reporting an error: nothing runs, while the value
is 2. -/
theorem C47_scala_for_refuted :
    ∃ f, (dumpTlms .scala (fun _ => some (.tt, [])) 7 true [forTlm] Gen.start).out = renderFun true f ∧
      (dumpTlms .scala (fun _ => some (.tt, [])) 7 true [forTlm] Gen.start).err = false ∧
      call tw .scala (pmatch tw) ⟨false, .num 0⟩ (some (.num 0)) (fun _ => [.num 5]) f (fun _ => .num 0) = .stop ∧
      value tw false (some (.num 0)) (actives tw 7 (.num 0) (fun _ => [.num 5]) (fun _ => .num 0) [forTlm]) = some (.num 2) := by
  exact ⟨[(0, .var 0, .tt, [], [.forb (fun ρ => ρ 0) [(.wild, .tt, [], [.asg none (num 2)])]])], rfl, rfl, rfl, rfl⟩

/-- The C++ generator refuses every program with a `for … in` loop, for every declaration, even one that has nothing to do with
the loop. -/
theorem C47_cpp_for_in_refuted (pr : Printer V) (d : Nat) (glob : Bool) (ts : List (Tlm V)) (g : Gen V)
    (h : ∃ t ∈ ts, ∃ x e b, Stmt.forin x e b ∈ t.body) : (dumpTlms .cpp pr d glob ts g).err = true := by
  have block : ∀ (b : List (Stmt V)) (g : Gen V), (∃ x e c, Stmt.forin x e c ∈ b) → (dumpBlock .cpp pr d b g).err = true := by
    intro b
    induction b with
    | nil => rintro g ⟨_, _, _, h⟩; cases h
    | cons s ss ih =>
      rintro g ⟨x, e, c, h⟩
      rcases List.mem_cons.1 h with h | h
      · subst h
        exact dumpBlock_err ss _ (by simp [dumpStmt])
      · exact ih _ ⟨x, e, c, h⟩
  induction ts generalizing g with
  | nil => obtain ⟨_, h, _⟩ := h; cases h
  | cons t ts ih =>
    obtain ⟨t', ht, hb⟩ := h
    rcases List.mem_cons.1 ht with rfl | ht
    · refine dumpTlms_err ts _ ?_
      cases glob
      · exact pop_err (block _ _ hb)
      · exact pop_err (pop_err (block _ _ hb))
    · exact ih _ ⟨t', ht, hb⟩

/-- A pattern `{..., p}` is printed without a test that the sequence has elements: on the empty sequence
`{..., _}` matches, and `{..., x}` throws. -/
theorem C47_last_pattern_refuted :
    (∃ c b, cppPrinter (fun _ => 0) (.seq [.rest, .wild]) = some (c, b) ∧
      (armMatch tw .cpp (pmatch tw) (.seq []) (fun _ => .num 0) (.seq [.rest, .wild]) c b).bind (fun o => .ok o.isSome) = .ok true ∧
      (pmatch tw (.seq [.rest, .wild]) (.seq []) (fun _ => .num 0)).isSome = false) ∧
    (∃ c b, cppPrinter (fun _ => 0) (.seq [.rest, .var 0]) = some (c, b) ∧
      armMatch tw .cpp (pmatch tw) (.seq []) (fun _ => .num 0) (.seq [.rest, .var 0]) c b = .stop) :=
  ⟨⟨_, _, rfl, rfl, rfl⟩, ⟨_, _, rfl, rfl⟩⟩

/-! ### Variables -/

theorem varCalls_evald {W : World V} {native : Pat V → V → Env V → Option (Env V)} {j : Job V} {deft : Option V}
    {nodes : Nat → List V} {f : List (Nat × Arm V)} {ρ : Env V} (v : V) : ∀ n,
    varCalls W native j deft nodes f ρ n ⟨.evald, v⟩ = List.replicate n (.ok v)
  | 0 => rfl
  | n + 1 => by
    simp only [varCalls, varCall, List.replicate_succ, varCalls_evald v n]

/-- **C57**: what a history of demands of a variable gives in C++: the first the value of the equations; all later ones
the same for a collection, but otherwise always the initial value (default or `0`), whatever the equations say. -/
theorem C57_history (W : World V) (ar : Nat → Nat) (L : Lawful W ar) (native : Pat V → V → Env V → Option (Env V))
    (ts : List (Tlm V)) (d : Nat)
    (hp : ∀ t ∈ ts, patOk ar t.pat ∧ patsB (patOk ar) t.body) (hc : ∀ t ∈ ts, covered .cpp d t.body)
    (he : (dumpTlms .cpp (cppPrinter ar) d true ts Gen.start).err = false)
    (f : List (Nat × Arm V)) (hf : (dumpTlms .cpp (cppPrinter ar) d true ts Gen.start).out = renderFun true f)
    (col : Bool) (anode zero : V) (deft : Option V) (nodes : Nat → List V) (ρ : Env V) (hd : col = true → deft.isSome = true)
    (n : Nat) :
    varCalls W native ⟨col, anode⟩ deft nodes f ρ (n + 1) (.init deft zero) =
      (match value W col deft (actives W d anode nodes ρ ts) with
        | some v => .ok v
        | none => .stop) ::
      List.replicate n (.ok (if col then (value W col deft (actives W d anode nodes ρ ts)).getD zero else deft.getD zero)) := by
  obtain ⟨f', h1, h2⟩ := dumpTlms_text ts he
  rw [h2] at hf
  obtain rfl := renderFun_true_inj f' f hf
  have r := run_fun (W := W) (lang := .cpp) (native := native) (j := ⟨col, anode⟩) (P := patOk ar)
    (fun p c b h hk n ρ => cppArm L hk h n ρ) nodes ts f' h1 (fun t ht => ⟨(hp t ht).1, (hp t ht).2, hc t ht⟩) ρ (deft.getD anode)
  simp only [varCalls, varCall, VarMem.init, r]
  cases col with
  | true =>
    obtain ⟨v, rfl⟩ := Option.isSome_iff_exists.1 (hd rfl)
    simp [flow, finish, value, varCalls_evald]
  | false =>
    cases actives W d anode nodes ρ ts with
    | nil => cases deft <;> simp [flow, finish, value, varCalls_evald]
    | cons v l => simp [flow, value, varCalls_evald]

/-- **C57** for collections: all demands give the same value. -/
theorem C57_collection_partial (W : World V) (ar : Nat → Nat) (L : Lawful W ar) (native : Pat V → V → Env V → Option (Env V))
    (ts : List (Tlm V)) (d : Nat)
    (hp : ∀ t ∈ ts, patOk ar t.pat ∧ patsB (patOk ar) t.body) (hc : ∀ t ∈ ts, covered .cpp d t.body)
    (he : (dumpTlms .cpp (cppPrinter ar) d true ts Gen.start).err = false)
    (f : List (Nat × Arm V)) (hf : (dumpTlms .cpp (cppPrinter ar) d true ts Gen.start).out = renderFun true f)
    (anode zero v : V) (nodes : Nat → List V) (ρ : Env V) (n : Nat) :
    ∀ r ∈ varCalls W native ⟨true, anode⟩ (some v) nodes f ρ n (.init (some v) zero),
      r = .ok ((actives W d anode nodes ρ ts).foldl W.combine v) := by
  cases n with
  | zero => intro r hr; simp [varCalls] at hr
  | succ n =>
    rw [C57_history W ar L native ts d hp hc he f hf true anode zero (some v) nodes ρ (fun _ => rfl) n]
    intro r hr
    simp only [value, if_true, Option.map_some, Option.getD_some, List.mem_cons, List.mem_replicate] at hr
    rcases hr with h | ⟨_, h⟩ <;> exact h

/-- `match ?x: d := x`. -/
def setTlm : Tlm T := ⟨0, .var 0, [.assign (.value 7) fun ρ => ρ 0]⟩

/-- **C57** is false for other variables: with the equation `d := x` at a node 5 and default 0, the first demand gives 5,
the next ones 0. -/
theorem C57_repeat_refuted :
    ∃ f, (dumpTlms .cpp (cppPrinter exAr0) 7 true [setTlm] Gen.start).out = renderFun true f ∧
      (dumpTlms .cpp (cppPrinter exAr0) 7 true [setTlm] Gen.start).err = false ∧
      varCalls tw (pmatch tw) ⟨false, .num 0⟩ (some (.num 0)) (fun _ => [.num 5]) f (fun _ => .num 0) 3 (.init (some (.num 0)) (.num 0)) =
        [.ok (.num 5), .ok (.num 0), .ok (.num 0)] :=
  ⟨[(0, .var 0, .tt, [(0, .node)], [.asg none fun ρ => ρ 0])], rfl, rfl, rfl⟩
where
  /-- No constructor has fields. -/
  exAr0 : Nat → Nat := fun _ => 0

/-! ### Non-vacuity -/

/-- Arity in the example: constructor 1 has two fields. -/
def exAr : Nat → Nat := fun c => if c = 1 then 2 else 0

/-- Nodes with the right number of fields and at least the constructor they have. -/
def ew : World T where
  typeOf := tw.typeOf
  consOf := fun | .node 1 [_, _] => 1 | _ => 99
  fields := fun | .node 1 [a, b] => [a, b] | _ => []
  elems := tw.elems
  mkseq := tw.mkseq
  same := tw.same
  truth := tw.truth
  combine := tw.combine

theorem ew_lawful : Lawful ew exAr where
  arity := fun v => by
    simp only [ew]
    split <;> simp_all [exAr]
  seq := fun l => rfl

/-- `match ?this=cons(?x, {?y,...}): if x then d := x; else case y begin match _: d := y end else d := 4; d(this) := 3`. -/
def exTlm : Tlm T :=
  ⟨0, .and (.var 0) (.call 1 [.var 1, .seq [.var 2, .rest]]),
    [.ite (fun ρ => ρ 1) [.assign (.value 7) fun ρ => ρ 1] [.cases (fun ρ => ρ 2) [(.cond fun ρ => ρ 2, [.assign (.value 7) fun ρ => ρ 2])]
      [.assign (.value 7) (num 4)]], .decl 3 (num 5) false, .assign (.value 7) fun ρ => ρ 3]⟩

/-- A node that matches. -/
def exNode (a b : Nat) : T := .node 1 [.num a, .seq [.num b]]

example : (∀ t ∈ [exTlm], patOk exAr t.pat ∧ patsB (patOk exAr) t.body) ∧ (∀ t ∈ [exTlm], covered .cpp 7 t.body) ∧
    (∀ t ∈ [exTlm], covered .scala 7 t.body) ∧ (dumpTlms .cpp (cppPrinter exAr) 7 true [exTlm] Gen.start).err = false ∧
    actives ew 7 (.num 0) (fun _ => [exNode 6 0, exNode 0 8, exNode 0 0, .num 1]) (fun _ => .num 0) [exTlm] =
      [.num 6, .num 5, .num 8, .num 5, .num 4, .num 5] := by
  refine ⟨?_, ?_, ?_, rfl, rfl⟩ <;> intro t ht <;> simp only [List.mem_singleton] at ht <;> subst ht
  · simp [exTlm, patOk, patsOk, seqOk, patsB, patsS, patsM, exAr]
  · simp [exTlm, covered, coveredS, coveredM, touches, touchesS, touchesM]
  · simp [exTlm, covered, coveredS, coveredM, touches, touchesS, touchesM]

/-- `match {?y,...}: for v0 begin match ?x if x: d := x; match _: d := 9 end`. -/
def exFor : Tlm T :=
  ⟨0, .var 0, [.fors (fun ρ => ρ 0) [(.and (.var 1) (.cond fun ρ => ρ 1), [.assign (.value 7) fun ρ => ρ 1]),
    (.wild, [.assign (.value 7) (num 9)]), (.wild, [.assign (.value 8) (num 1)])]]⟩

/-- `match ?y: for x in y begin if x then d := x; end; end`. -/
def exForIn : Tlm T :=
  ⟨0, .var 0, [.forin 1 (fun ρ => ρ 0) [.ite (fun ρ => ρ 1) [.assign (.value 7) fun ρ => ρ 1] []]]⟩

example : (∀ t ∈ [exFor], patOk exAr t.pat ∧ patsB (patOk exAr) t.body) ∧ (∀ t ∈ [exFor], covered .cpp 7 t.body) ∧
    (dumpTlms .cpp (cppPrinter exAr) 7 true [exFor] Gen.start).err = false ∧
    actives ew 7 (.num 0) (fun _ => [.num 5, .num 0]) (fun _ => .num 0) [exFor] = [.num 5, .num 9, .num 9] := by
  refine ⟨?_, ?_, rfl, rfl⟩ <;> intro t ht <;> simp only [List.mem_singleton] at ht <;> subst ht
  · simp [exFor, patOk, patsB, patsS, patsM]
  · simp [exFor, covered, coveredS, coveredF]

example : (∀ t ∈ [exForIn], covered .scala 7 t.body) ∧
    (dumpTlms .scala (fun _ => some (.tt, [])) 7 true [exForIn] Gen.start).err = false ∧
    actives ew 7 (.num 0) (fun _ => [.seq [.num 1, .num 0, .num 3]]) (fun _ => .num 0) [exForIn] = [.num 1, .num 3] := by
  refine ⟨?_, rfl, rfl⟩
  intro t ht
  simp only [List.mem_singleton] at ht
  subst ht
  simp [exForIn, covered, coveredS]

end Aps.Props
