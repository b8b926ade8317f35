import Verif.Proofs.Consts
/-! # C106: constants of modules -/
namespace Aps.Props
open Aps Aps.Consts

/-- **C106 (C++).** If nothing is read that has no value (which is undefined), then every member has the value of its expression, in
whatever order members were initialized. -/
theorem C106_cpp {V : Type} (fns : Nat → Exp V) (fuel : Nat) (formals env : Env V) (ms : List (Member V))
    (hd : Distinct formals ms) (h : initCpp fns fuel formals ms = .ok env) : Solves fns formals ms env :=
  solves_order (init_sound fuel _ formals env (distinct_order hd) h)

/-- **C106 (C++).** Nothing is read that has no value if members use only what comes before them, where types come first. -/
theorem C106_defined_partial {V : Type} (fns : Nat → Exp V) (fuel : Nat) (formals : Env V) (ms : List (Member V))
    (hb : Before fns formals (cppOrder ms)) : initCpp fns fuel formals ms ≠ .ub := by
  intro e
  rcases init_ub fuel formals _ hb (cppOrder ms) [] formals rfl (fun n h => h.elim id fun ⟨_, h, _⟩ => (by cases h)) with ⟨env', h⟩ | h
  · rw [initCpp, h] at e; cases e
  · rw [initCpp, h] at e; cases e

/-- **C106 (Scala).** If members use only what comes before them, then every member has the value of its expression. -/
theorem C106_scala_partial {V : Type} (fns : Nat → Exp V) (null : V) (fuel : Nat) (formals env : Env V) (ms : List (Member V))
    (hd : Distinct formals ms) (hb : Before fns formals ms) (h : initScala fns null fuel formals ms = .ok env) :
    Solves fns formals ms env := by
  rw [initScala, init_bad _ .ub fuel formals ms hb ms [] formals rfl (fun n h => h.elim id fun ⟨_, h, _⟩ => (by cases h))] at h
  exact init_sound fuel ms formals env hd h

/-- **C106.** In this order there is only one solution: so if the C++ code is defined, it gives all members the same values. -/
theorem C106_same {V : Type} (fns : Nat → Exp V) (null : V) (fuel fuel' : Nat) (formals env env' : Env V) (ms : List (Member V))
    (hd : Distinct formals ms) (hb : Before fns formals ms) (h : initScala fns null fuel formals ms = .ok env)
    (h' : initCpp fns fuel' formals ms = .ok env') (m : Member V) (hm : m ∈ ms) : env m.name = env' m.name :=
  solves_unique hb (C106_scala_partial fns null fuel formals env ms hd hb h) (C106_cpp fns fuel' formals env' ms hd h') ms [] (by simp) m hm

/-- **C106.** If calls of functions come to an end, then in Scala the constructor ends with values for all members, and in C++ too where
members use only what comes before them. -/
theorem C106_ends {V : Type} (fns : Nat → Exp V) (null : V) (formals : Env V) (ms : List (Member V))
    (hf : ∀ m ∈ ms, Finite fns m.init) : ∃ n, ∀ fuel, n ≤ fuel → (∃ env, initScala fns null fuel formals ms = .ok env) ∧
      (Before fns formals (cppOrder ms) → ∃ env, initCpp fns fuel formals ms = .ok env) := by
  obtain ⟨n, hn⟩ := init_ends hf
  obtain ⟨k, hk⟩ := init_ends (ms := cppOrder ms) fun m hm => hf m ((perm_order ms).mem_iff.1 hm)
  refine ⟨max n k, fun fuel h => ⟨?_, fun hb => ?_⟩⟩
  · exact (init_null fuel ms formals).resolve_right (hn _ fuel formals (fun e => (by cases e)) (by omega))
  · exact (init_ub fuel formals _ hb (cppOrder ms) [] formals rfl (fun n h => h.elim id fun ⟨_, h, _⟩ => (by cases h))).resolve_right
      (hk _ fuel formals (fun e => (by cases e)) (by omega))

/-- `x0 = 3; type T1 = f0; x2 = x0 * x0 + T1` with the formal `f9`; function 0 is `f9`. -/
def conMs : List (Member Int) :=
  [⟨0, false, .lit 3⟩, ⟨1, true, .call 0⟩, ⟨2, false, .op (fun x y => x + y) (.op (fun x y => x * y) (.use 0) (.use 0)) (.use 1)⟩]

def conFns : Nat → Exp Int := fun _ => .use 9

def conFormals : Env Int := fun n => if n = 9 then some 5 else none

theorem con_before : Before conFns conFormals conMs := by
  intro l r m e n u
  have h9 : ∃ v, conFormals 9 = some v := ⟨5, rfl⟩
  match l, e with
  | [], e => cases e; cases u
  | [_], e =>
    cases e
    cases u with
    | call u => cases u; exact .inl h9
  | [_, _], e =>
    cases e
    cases u with
    | left u =>
      cases u with
      | left u => cases u; exact .inr ⟨_, .head _, rfl⟩
      | right u => cases u; exact .inr ⟨_, .head _, rfl⟩
    | right u => cases u; exact .inr ⟨_, .tail _ (.head _), rfl⟩
  | _ :: _ :: _ :: l, e =>
    have := congrArg List.length e
    simp [conMs] at this

example : Distinct conFormals conMs ∧ Before conFns conFormals conMs ∧
    (∃ env, initScala conFns 0 5 conFormals conMs = .ok env ∧ env 2 = some 14) ∧
    (∃ env, initCpp conFns 5 conFormals conMs = .ok env ∧ env 2 = some 14) :=
  ⟨⟨by decide, by decide⟩, con_before, ⟨_, by with_unfolding_all rfl, rfl⟩, ⟨_, by with_unfolding_all rfl, rfl⟩⟩

example : ∀ m ∈ conMs, Finite conFns m.init := by
  intro m hm
  simp only [conMs, List.mem_cons, List.not_mem_nil, or_false] at hm
  rcases hm with rfl | rfl | rfl
  · exact .lit _
  · exact .call (.use 9)
  · exact .op (.op (.use 0) (.use 0)) (.use 1)

/-- Here types come first already. -/
example : Before conFns conFormals (cppOrder [⟨1, true, Exp.call 0⟩, ⟨0, false, .lit 3⟩]) := by
  intro l r m e n u
  have h9 : ∃ v, conFormals 9 = some v := ⟨5, rfl⟩
  match l, e with
  | [], e =>
    cases e
    cases u with
    | call u => cases u; exact .inl h9
  | [_], e => cases e; cases u
  | _ :: _ :: l, e =>
    have := congrArg List.length e
    simp [cppOrder] at this

/-! ### What goes wrong -/

/-- `x0 = x1 + x1; x1 = 2`. -/
def conLate : List (Member Int) := [⟨0, false, .op (fun x y => x + y) (.use 1) (.use 1)⟩, ⟨1, false, .lit 2⟩]

/-- **C106, refuted for constants in another order.** The equations have a solution, but Scala gives the first constant the value that
comes from null (or 0), and C++ reads what is not initialized. -/
theorem C106_order_refuted : (∃ env, Solves conFns (fun _ => none) conLate env ∧ env 0 = some 4) ∧
    (∃ env, initScala conFns 0 5 (fun _ => none) conLate = .ok env ∧ env 0 = some 0 ∧ ¬ Solves conFns (fun _ => none) conLate env) ∧
    initCpp conFns 5 (fun _ => none) conLate = .ub := by
  refine ⟨⟨fun n => if n = 0 then some 4 else if n = 1 then some 2 else none, ⟨fun m hm => ?_, fun _ _ h => (by cases h)⟩, rfl⟩,
    ⟨fun k => if k = 1 then some 2 else if k = 0 then some 0 else none, by with_unfolding_all rfl, rfl, fun s => ?_⟩,
    by with_unfolding_all rfl⟩
  · rcases List.mem_cons.1 hm with rfl | hm
    · exact ⟨4, rfl, .op (x := (2 : Int)) (y := 2) (.use rfl) (.use rfl)⟩
    · rw [List.mem_singleton] at hm; subst hm
      exact ⟨2, rfl, .lit 2⟩
  · obtain ⟨v, hv, mv⟩ := s.1 ⟨0, false, .op (fun x y => x + y) (.use 1) (.use 1)⟩ (by simp [conLate])
    cases mv with
    | op a b =>
      cases a with
      | use a =>
        cases b with
        | use b =>
          cases a; cases b; cases hv

/-- **C106, refuted for types that use constants in C++.** `x0 = 3; type T1 = x0`: types come first, so `x0` is not initialized; the
order of the module is right, and Scala gives both their values. -/
theorem C106_types_refuted : Before conFns (fun _ => none) [⟨0, false, .lit 3⟩, ⟨1, true, .use 0⟩] ∧
    (∃ env, initScala conFns 0 5 (fun _ => none) [⟨0, false, .lit 3⟩, ⟨1, true, .use 0⟩] = .ok env ∧ env 1 = some 3) ∧
    initCpp conFns 5 (fun _ => none) [⟨0, false, .lit 3⟩, ⟨1, true, .use 0⟩] = .ub := by
  refine ⟨fun l r m e n u => ?_, ⟨_, by with_unfolding_all rfl, rfl⟩, by with_unfolding_all rfl⟩
  match l, e with
  | [], e => cases e; cases u
  | [_], e => cases e; cases u; exact .inr ⟨_, .head _, rfl⟩
  | _ :: _ :: l, e =>
    have := congrArg List.length e
    simp at this

/-- **C106, refuted for types after constants in Scala.** `x0 = T1; type T1 = 3`: in C++ types come first, in Scala they do not. -/
theorem C106_scala_types_refuted :
    (∃ env, initCpp conFns 5 (fun _ => none) [⟨0, false, .use 1⟩, ⟨1, true, .lit 3⟩] = .ok env ∧ env 0 = some 3) ∧
    ∃ env, initScala conFns 0 5 (fun _ => none) [⟨0, false, .use 1⟩, ⟨1, true, .lit 3⟩] = .ok env ∧ env 0 = some 0 :=
  ⟨⟨_, by with_unfolding_all rfl, rfl⟩, ⟨_, by with_unfolding_all rfl, rfl⟩⟩

end Aps.Props
