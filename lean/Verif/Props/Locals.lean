import Verif.Proofs.Locals
/-!
# C100: local attributes

`noteRules` is the pass that makes attributes of the locals of the rules, `localCall` a call of the function generated for
a local.  `Reach W b ρ fs b' ρ'` (Spec/Locals.lean): running the block `b` runs the block `b'` inside it.
-/
namespace Aps.Props
open Aps.DynGen Aps.Locals
variable {V : Type}

/-- **C100.** Every local outside loops, and nothing else, becomes an attribute, once; they are numbered on, in the order
of the program. -/
theorem C100_numbers (lang : Lang) (ts : List (Tlm V)) (s : St) :
    ∃ l, (noteRules lang ts s).2.noted = s.noted ++ l ∧ l.map (·.1) = programLocals ts ∧
      l.map (·.2) = List.range' (s.unique + 1) l.length ∧ (noteRules lang ts s).2.unique = s.unique + l.length := by
  obtain ⟨h1, h2⟩ := noteRules_after lang ts s
  have hl : (numbersFrom s.unique (programLocals ts)).length = (programLocals ts).length := by
    conv_rhs => rw [← numbersFrom_fst s.unique (programLocals ts)]
    rw [List.length_map]
  exact ⟨_, h2, numbersFrom_fst _ _, by rw [numbersFrom_snd, hl], by rw [h1, hl]⟩

/-- **C100.** The objects of two locals of a program never have the same name, whatever the names of the locals, nor does one
have that of an attribute of the module. -/
theorem C100_names (lang : Lang) (ts : List (Tlm V)) (nm : Nat → Name) :
    ((noteRules lang ts ⟨0, [], false⟩).2.noted.map fun x => localName nm x.1 x.2).Nodup ∧
    ∀ x ∈ (noteRules lang ts ⟨0, [], false⟩).2.noted, ∀ n, localName nm x.1 x.2 ≠ attrName n := by
  obtain ⟨l, h1, -, h3, -⟩ := C100_numbers lang ts ⟨0, [], false⟩
  rw [h1]
  have hn : (l.map (·.2)).Nodup := by rw [h3]; exact List.nodup_range'
  simp only [List.nil_append]
  constructor
  · rw [List.Nodup, List.pairwise_map] at hn ⊢
    refine hn.imp fun {a b} hab h => hab ?_
    simp only [localName, List.cons.injEq, true_and] at h
    exact ScalaPat.decimal_inj (sep_inj (decimal_sep _) (decimal_sep _) h).1
  · intro x _ n h
    simp only [localName, attrName, List.cons.injEq, true_and] at h
    exact decimal_ne x.2 (sep_inj (a := Ast.decimal x.2) (b := []) (decimal_sep _) (by simp) h).1

/-- **C100.** A use of a local names the object of this local and no other. -/
theorem C100_use (lang : Lang) (ts : List (Tlm V)) (nm : Nat → Name) (hd : (programLocals ts).Nodup) (x : Nat)
    (hx : x ∈ programLocals ts) :
    ∀ y ∈ (noteRules lang ts ⟨0, [], false⟩).2.noted,
      useName nm (noteRules lang ts ⟨0, [], false⟩).2.noted x = localName nm y.1 y.2 ↔ y.1 = x := by
  obtain ⟨l, h1, h2, h3, -⟩ := C100_numbers lang ts ⟨0, [], false⟩
  have hN := (C100_names lang ts nm).1
  rw [h1] at hN ⊢
  simp only [List.nil_append] at hN ⊢
  have hl : (l.map (·.1)).Nodup := by rw [h2]; exact hd
  have hx' : x ∈ l.map (·.1) := by rw [h2]; exact hx
  obtain ⟨z, hz, rfl⟩ := List.mem_map.1 hx'
  have hu : ∀ y ∈ l, y.1 = z.1 → y = z := fun y hy h => List.inj_on_of_nodup_map hl hy hz h
  have hp : prefixOf l z.1 = z.2 := by
    simp only [prefixOf]
    cases hf : l.reverse.find? (fun b => b.1 == z.1) with
    | none =>
      have := List.find?_eq_none.1 hf z (by simpa using hz)
      simp at this
    | some y =>
      have e : y.1 = z.1 := by simpa using List.find?_some hf
      rw [hu y (by simpa using List.mem_of_find?_eq_some hf) e]
      rfl
  intro y hy
  rw [useName, hp]
  constructor
  · intro h
    exact congrArg Prod.fst (List.inj_on_of_nodup_map hN hy hz h.symm)
  · intro h
    rw [hu y hy h]

/-- **C100.** After that, no statement outside loops declares a plain variable: the variables at a place are those of the
matches around it. -/
theorem C100_env (W : World V) (lang : Lang) (d : Nat) (a : V) (b : List (Stmt V)) (s : St) (ρ : Env V) :
    ∀ x ∈ (note lang b s).1, (activeS W d a x ρ).2 = ρ := by
  induction b generalizing s with
  | nil => intro x hx; cases hx
  | cons t b ih =>
    intro x hx
    rcases List.mem_cons.1 hx with rfl | hx
    · cases t with
      | forin y e c => cases lang <;> rfl
      | _ => rfl
    · exact ih _ x hx

/-- **C100** (C++).  Whenever a rule with a local is run at a node, and gets to the block of the local, the function of the
local, called at this node, computes what the equations of the block say with the values that the variables have there:
as long as no match around the local hides a variable of an outer one. -/
theorem C100_cpp_partial (W : World V) (ar : Nat → Nat) (L : Lawful W ar) (native : Pat V → V → Env V → Option (Env V))
    (nm : Nat → Name) (t : Tlm V) (hp : patOk ar t.pat ∧ patsB (patOk ar) t.body) (n : V) (ρ ρ0 ρ1 : Env V) (fs : List (Frame V))
    (b : List (Stmt V)) (hm : pmatch W t.pat n ρ = some ρ0) (hr : Reach W t.body ρ0 fs b ρ1)
    (hn : ((around t.pat fs).map nm).Nodup) (d : Nat) (hc : covered .cpp d b)
    (bs : List (Bound V)) (hb : context (cppPrinter ar) t.pat fs = some bs)
    (he : (dumpBlock .cpp (cppPrinter ar) d b Gen.start).err = false) (cs : List (Code V))
    (ht : (dumpBlock .cpp (cppPrinter ar) d b Gen.start).out = renders cs) (col : Bool) (deft : Option V)
    (hd : col = true → deft.isSome = true) :
    localCall W .cpp native nm col n deft bs cs ρ =
      match value W col deft (active W d n b ρ1) with
      | some v => .ok v
      | none => .stop := by
  have hnd : (declared nm bs).Nodup := by
    rw [declared_eq]
    exact ((context_vars hb).map nm).nodup hn
  rw [localCall, if_pos (.inr hnd), context_enter (cpp_enters L native) hp.1 hp.2 hm hr hb, Res.bind]
  exact block_value (fun p c b h hk n ρ => cppArm L hk h n ρ) (reach_pats hr hp.2) hc he ht col n deft ρ1 hd

mutual
/-- Every statement has only patterns of which nothing is asked. -/
theorem patsS_all : ∀ s : Stmt V, patsS (fun _ => True) s
    | .assign _ _ => trivial
    | .ite _ t e => ⟨patsB_all t, patsB_all e⟩
    | .cases _ ms b => ⟨patsM_all ms, patsB_all b⟩
    | .fors _ ms => patsM_all ms
    | .forin _ _ b => patsB_all b
    | .decl _ _ _ => trivial
/-- The same of a block. -/
theorem patsB_all : ∀ b : List (Stmt V), patsB (fun _ => True) b
    | [] => trivial
    | s :: ss => ⟨patsS_all s, patsB_all ss⟩
/-- The same of matches. -/
theorem patsM_all : ∀ ms : List (Pat V × List (Stmt V)), patsM (fun _ => True) ms
    | [] => trivial
    | (_, b) :: ms => ⟨trivial, patsB_all b, patsM_all ms⟩
end

/-- **C100** (Scala).  The same; a hidden variable is no problem there.  (Patterns are taken to mean the same, as in
C47_scala; see C93.) -/
theorem C100_scala (W : World V) (pr : Printer V) (nm : Nat → Name) (t : Tlm V) (n : V) (ρ ρ0 ρ1 : Env V) (fs : List (Frame V))
    (b : List (Stmt V)) (hm : pmatch W t.pat n ρ = some ρ0) (hr : Reach W t.body ρ0 fs b ρ1) (d : Nat)
    (hc : covered .scala d b) (bs : List (Bound V)) (hb : context pr t.pat fs = some bs)
    (he : (dumpBlock .scala pr d b Gen.start).err = false) (cs : List (Code V))
    (ht : (dumpBlock .scala pr d b Gen.start).out = renders cs) (col : Bool) (deft : Option V)
    (hd : col = true → deft.isSome = true) :
    localCall W .scala (pmatch W) nm col n deft bs cs ρ =
      match value W col deft (active W d n b ρ1) with
      | some v => .ok v
      | none => .stop := by
  have pt : ∀ b : List (Stmt V), patsB (fun _ => True) b := patsB_all
  rw [localCall, if_pos (.inl rfl), context_enter (scala_enters W pr) trivial (pt _) hm hr hb, Res.bind]
  exact block_value (P := fun _ => True) (fun p c b h hk n ρ => rfl) (pt _) hc he ht col n deft ρ1 hd

/-! ### An example -/

/-- Values: numbers and pairs. -/
inductive LT where
  | num (n : Nat)
  | pair (a b : LT)

/-- Constructor 1 is a pair. -/
def locW : World LT where
  typeOf := fun _ => 0
  consOf := fun | .pair _ _ => 1 | _ => 0
  fields := fun | .pair a b => [a, b] | _ => []
  elems := fun _ => []
  mkseq := fun _ => .num 0
  same := fun | .num a, .num b => a == b | _, _ => false
  truth := fun | .num 0 => false | _ => true
  combine := fun a _ => a

/-- `match ?this=pair(?x,?y): case y begin match pair(?z,_): local d := z; end; end`; the local 7 has two equations. -/
def locBody : List (Stmt LT) := [.decl 7 (fun _ => .num 0) true, .ite (fun ρ => ρ 3) [.assign (.value 7) fun ρ => ρ 3]
  [.assign (.value 7) fun ρ => ρ 1]]

def locRule : Tlm LT := ⟨0, .and (.var 0) (.call 1 [.var 1, .var 2]),
  [.decl 6 (fun _ => .num 0) true, .cases (fun ρ => ρ 2) [(.call 1 [.var 3, .wild], locBody)] []]⟩

def locAr : Nat → Nat := fun c => if c = 1 then 2 else 0

def locNode (a b c : Nat) : LT := .pair (.num a) (.pair (.num b) (.num c))

def locEnv (a b c : Nat) : Env LT := fun v => if v = 2 then .pair (.num b) (.num c) else if v = 1 then .num a else if v = 0 then
  locNode a b c else .num 0

theorem locReach (a b c : Nat) : ∃ ρ0 ρ1, pmatch locW locRule.pat (locNode a b c) (fun _ => .num 0) = some ρ0 ∧
    Reach locW locRule.body ρ0 [.arm (fun ρ => ρ 2) (.call 1 [.var 3, .wild])] locBody ρ1 ∧
    active locW 7 (locNode a b c) locBody ρ1 = [if b = 0 then .num a else .num b] := by
  refine ⟨_, _, rfl, .arm (fs := []) (pre := []) (post := []) (d := []) (body := locBody) (by simp [locRule]) (by simp) rfl (.here _ _), ?_⟩
  cases b <;> rfl

example : patOk locAr locRule.pat ∧ patsB (patOk locAr) locRule.body ∧ covered .cpp 7 locBody ∧ covered .scala 7 locBody ∧
    programLocals [locRule, locRule] = [6, 7, 6, 7] ∧
    (noteRules .cpp [locRule, locRule] ⟨0, [], false⟩).2.noted = [(6, 1), (7, 2), (6, 3), (7, 4)] ∧
    (∃ bs, context (cppPrinter locAr) locRule.pat [.arm (fun ρ => ρ 2) (.call 1 [.var 3, .wild])] = some bs ∧
      bs.length = 2 ∧ ((around locRule.pat [.arm (fun ρ => ρ 2) (.call 1 [.var 3, .wild])]).map fun x => Ast.decimal x).Nodup) ∧
    (dumpBlock .cpp (cppPrinter locAr) 7 locBody Gen.start).err = false := by
  refine ⟨?_, ?_, ?_, ?_, rfl, rfl, ⟨_, rfl, rfl, by decide +kernel⟩, rfl⟩
  · simp [locRule, patOk, patsOk, locAr]
  · simp [locRule, locBody, patsB, patsS, patsM, patOk, patsOk, locAr]
  · simp [locBody, covered, coveredS]
  · simp [locBody, covered, coveredS]

/-- If a match hides a variable of an outer one (here `x`, number 1, and number 3, which has the same name), the C++ function of the
local declares it twice, and is refused: although the local has a value. -/
theorem C100_hidden_refuted : ∃ (nm : Nat → Name) (bs : List (Bound LT)) (cs : List (Code LT)),
    context (cppPrinter locAr) locRule.pat [.arm (fun ρ => ρ 2) (.call 1 [.var 3, .wild])] = some bs ∧
    (dumpBlock .cpp (cppPrinter locAr) 7 locBody Gen.start).err = false ∧
    (dumpBlock .cpp (cppPrinter locAr) 7 locBody Gen.start).out = renders cs ∧
    localCall locW .cpp (pmatch locW) nm false (locNode 4 5 6) none bs cs (fun _ => .num 0) = .stop ∧
    localCall locW .cpp (pmatch locW) (fun x => Ast.decimal x) false (locNode 4 5 6) none bs cs (fun _ => .num 0) = .ok (.num 5) := by
  refine ⟨fun x => if x = 1 ∨ x = 3 then ['x'] else Ast.decimal x, _, [.ifb (fun ρ => ρ 3) [.asg none fun ρ => ρ 3] [.asg none fun ρ => ρ 1]],
    rfl, rfl, rfl, ?_, ?_⟩
  · rw [localCall, if_neg (by decide +kernel)]
  · rw [localCall, if_pos (by decide +kernel)]
    rfl

end Aps.Props
