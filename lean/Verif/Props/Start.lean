import Verif.Proofs.Start
/-! # C105: attributes and variables start with their defaults -/
namespace Aps.Props
open Aps Aps.Start

/-- **C105 (Scala).** For any operations, an attribute that is not local, whose default is not simple if it is a collection, and that is not
assigned to if it is circular: every
`get` gives the declared value after what was assigned before it, in order: the last value, or all of them combined, starting with
the default. A value that was read before anything was assigned is final: then `set` stops. -/
theorem C105_scala_partial {V : Type} (d : Decl V) (null : V) (h1 : ∀ e, d.dflt = .simple e → d.col = false ∧ d.loc = false)
    (h2 : ∀ i c, d.dflt = .composite i c → d.col = true ∧ c ≠ none) (ops : List (Op V))
    (h3 : d.cir = false ∨ ∀ v, Op.set v ∉ ops) : scalaRun d null ops = watch d true [] false ops := by
  obtain ⟨C, hC, g⟩ := good_dump h1 h2
  rw [scalaRun, hC]
  exact run_scala g ops _ [] false h3 (.inl ⟨rfl, rfl, rfl⟩)

/-- **C105 (C++).** The same for every collection, except that nothing is final. -/
theorem C105_cpp_partial {V : Type} (d : Decl V) (null : V) (hc : d.col = true) (h2 : ∀ i, d.dflt ≠ .composite i none)
    (ops : List (Op V)) : cppRun d null ops = watch d false [] false ops := by
  have : cppPrints d = true := by
    unfold cppPrints
    cases hd : d.dflt with
    | composite i c =>
      cases c with
      | none => exact absurd hd (h2 i)
      | some c => rfl
    | _ => rfl
  rw [cppRun, if_pos this]
  exact run_cpp hc ops _ [] (.inl ⟨rfl, rfl⟩)

/-- **C105 (Scala).** An input variable, after any calls of its setter; it has a default or is a collection. -/
theorem C105_vars_partial {V : Type} (d : Decl V) (vs : List V) (h : d.col = true ∨ ∃ e, d.dflt = .simple e)
    (h2 : ∀ i, d.dflt ≠ .composite i none) :
    ∃ v, varRun d vs = .ok v ∧ after d vs = some v := by
  have : ∃ v0, varInit d = .ok v0 := by
    unfold varInit
    cases hd : d.dflt with
    | none =>
      rcases h with h | ⟨e, h⟩
      · exact ⟨_, if_pos h⟩
      · rw [hd] at h; cases h
    | simple e => exact ⟨e, rfl⟩
    | composite i c =>
      cases c with
      | none => exact absurd hd (h2 i)
      | some c => exact ⟨i, rfl⟩
  obtain ⟨v0, h0⟩ := this
  exact run_var h0 vs

/-- **C105.** So both backends, and the setters, give the same for a collection after the same contributions. -/
theorem C105_same_partial {V : Type} (d : Decl V) (null : V) (hc : d.col = true) (hr : d.cir = false) (h1 : ∀ e, d.dflt ≠ .simple e)
    (h2 : ∀ i, d.dflt ≠ .composite i none) (vs : List V) :
    ∃ v, varRun d vs = .ok v ∧ scalaRun d null (vs.map .set ++ [.get]) = .ok [v] ∧ cppRun d null (vs.map .set ++ [.get]) = .ok [v] := by
  obtain ⟨v, hv, ha⟩ := C105_vars_partial d vs (.inl hc) h2
  have key : ∀ (late : Bool) (ws pre : List V), after d (pre ++ ws) = some v → watch d late pre false (ws.map .set ++ [.get]) = .ok [v] := by
    intro late ws
    induction ws with
    | nil =>
      intro pre h
      rw [List.append_nil] at h
      simp only [List.map_nil, List.nil_append, watch, h]
      rfl
    | cons w ws ih =>
      intro pre h
      rw [List.map_cons, List.cons_append, watch, if_neg (by decide)]
      exact ih (pre ++ [w]) (by simpa using h)
  refine ⟨v, hv, ?_, ?_⟩
  · rw [C105_scala_partial d null (fun e h => absurd h (h1 e)) (fun i c h => ⟨hc, fun e => h2 i (e ▸ h)⟩) _ (.inl hr)]
    exact key true vs [] ha
  · rw [C105_cpp_partial d null hc h2]
    exact key false vs [] ha

/-- `collection attribute ... := 100 ; (x - y)`, of integers with sums. -/
def staDecl : Decl Int := ⟨false, true, false, .composite 100 (some fun x y => x - y), 0, -1, fun x y => x + y, fun x y => x = y⟩

/-- `collection attribute ... := 5`. -/
def staSimple : Decl Int := { staDecl with dflt := .simple 5 }

/-- A circular attribute without a default. -/
def staCir : Decl Int := { staDecl with col := false, cir := true, dflt := .none }

example : (∀ e, staDecl.dflt = .simple e → staDecl.col = false ∧ staDecl.loc = false) ∧
    (∀ i c, staDecl.dflt = .composite i c → staDecl.col = true ∧ c ≠ none) ∧ (∀ i, staDecl.dflt ≠ .composite i none) ∧ staDecl.col = true ∧ staDecl.cir = false ∧ (∀ e, staDecl.dflt ≠ .simple e) ∧
    scalaRun staDecl 0 [.set 30, .set 2, .get] = .ok [68] ∧ cppRun staDecl 0 [.set 30, .get, .set 2, .get] = .ok [70, 68] ∧
    varRun staDecl [30, 2] = .ok 68 :=
  ⟨fun _ h => (by cases h), fun _ _ h => (by cases h; exact ⟨rfl, by simp⟩), fun _ h => (by cases h), rfl, rfl, fun _ h => (by cases h), rfl, rfl, rfl⟩

example : (∀ e, staCir.dflt = .simple e → staCir.col = false ∧ staCir.loc = false) ∧
    (∀ v, Op.set v ∉ [Op.get, (Op.get : Op Int)]) ∧ scalaRun staCir 0 [.get, .get] = .ok [-1, -1] :=
  ⟨fun _ h => (by cases h), by simp, rfl⟩

example : scalaRun { staCir with cir := false, dflt := .simple 8 } 0 [.set 3, .get, .set 4, .get] = .ok [3, 4] ∧
    scalaRun { staCir with cir := false, dflt := .simple 8 } 0 [.get, .get] = .ok [8, 8] ∧
    scalaRun { staCir with cir := false, dflt := .simple 8 } 0 [.get, .set 3] = .stop := ⟨rfl, rfl, rfl⟩

example : staSimple.col = true ∧ cppRun staSimple 0 [.set 30, .set 2, .get] = .ok [37] ∧ varRun staSimple [30, 2] = .ok 37 :=
  ⟨rfl, rfl, rfl⟩

/-! ### What goes wrong -/

/-- **C105, refuted for simple defaults of collections in Scala.** They are printed as `getDefault`, but contributions are added to
`initial`, which is then undefined: reading stops, and so does a contribution. -/
theorem C105_simple_refuted : first staSimple = some 5 ∧ scalaRun staSimple 0 [.get] = .stop ∧ scalaRun staSimple 0 [.set 1] = .stop ∧
    cppRun staSimple 0 [.get] = .ok [5] := ⟨rfl, rfl, rfl, rfl⟩

/-- **C105, refuted for `:> e`.** A collection with an initial value and no combination should use that of its type; neither the class
nor the setter can be generated. -/
theorem C105_combiner_refuted : after { staDecl with dflt := .composite 100 none } [1] = some 101 ∧
    scalaRun { staDecl with dflt := .composite 100 none } 0 [.set 1, .get] = .stop ∧
    cppRun { staDecl with dflt := .composite 100 none } 0 [.set 1, .get] = .stop ∧
    varRun { staDecl with dflt := .composite 100 none } [1] = .stop := ⟨rfl, rfl, rfl, rfl⟩

/-- **C105, refuted for circular attributes in Scala.** Outside of a cycle an assignment that changes the value stops, whether or not
it is a collection. -/
theorem C105_circular_refuted : after staCir [3] = some 3 ∧ scalaRun staCir 0 [.set 3] = .stop ∧
    after { staDecl with cir := true } [1] = some 99 ∧ scalaRun { staDecl with cir := true } 0 [.set 1] = .stop ∧
    cppRun { staDecl with cir := true } 0 [.set 1, .get] = .ok [99] := ⟨rfl, rfl, rfl, rfl, rfl⟩

/-- **C105, refuted for simple defaults of circular collections in Scala.** What is read at first is the default, but what
contributions are added to is bottom. -/
theorem C105_bottom_refuted : first { staSimple with cir := true, vCombine := fun x y => max x y } = some 5 ∧
    scalaRun { staSimple with cir := true, vCombine := fun x y => max x y } 0 [.get] = .ok [5] ∧
    scalaRun { staSimple with cir := true, vCombine := fun x y => max x y } 0 [.set (-1), .get] = .ok [-1] := ⟨rfl, rfl, rfl⟩

/-- **C105, refuted for simple defaults of locals in Scala.** They are not in the class: without an assignment reading stops. -/
theorem C105_local_refuted : ∃ d : Decl Int, d.loc = true ∧ d.col = false ∧ first d = some 5 ∧ scalaRun d 0 [.get] = .stop :=
  ⟨{ staSimple with loc := true, col := false }, rfl, rfl, rfl, rfl⟩

/-- **C105, refuted for values that were read.** In C++ a collection that was read changes with the next contribution. -/
theorem C105_late_refuted : cppRun staDecl 0 [.get, .set 1, .get] = .ok [100, 99] ∧ scalaRun staDecl 0 [.get, .set 1, .get] = .stop :=
  ⟨rfl, rfl⟩

end Aps.Props
