import Verif.Proofs.CanonTyEval
/-! # C85 — the canonical type of a type name (analyze/canonical-type.c) -/
namespace Aps.Props
open Aps.CanonTy Aps.CType
set_option linter.unusedVariables false

/-- **C85 (meaning), partial.** In a well-formed program whose definitions are `Flat` (at most two `$`, see the specification), the
canonical type of a `Flat` type expression means the type that the expression means: formals of an instance are replaced by
its actuals, names of the module are qualified by the instance, the result of the module becomes the instance, other names stay.
Missing: everything else is refuted below. -/
theorem C85_meaning_partial {P : Prog} (wf : WellFormed P) (fl : FlatProg P) {n : Nat} {t : TExp} {es : List Nat} {C : Ty} {S : Sem}
    (hf : Flat P t) (hs : Scoped P es t) (h : canon P n t = .ok C) (hS : DenT P [] t S) : DenT P [] (toExp C) S :=
  ((all wf fl n).canon hf hs (.inr (.inl rfl)) h hS).1

/-- **C85 (unique meaning).** A type expression means at most one type. -/
theorem C85_unique {P : Prog} (wf : WellFormed P) {p : List Nat} {t : TExp} {S S' : Sem} (h : DenT P p t S) (h' : DenT P p t S') : S = S' :=
  h.det wf h'

/-- **C85 (identity), partial.** On the same programs and expressions: two type expressions have the same canonical type
iff they mean the same type, provided the canonical types do not begin with the result of a module that is defined as an alias. -/
theorem C85_identity_partial {P : Prog} (wf : WellFormed P) (fl : FlatProg P) {n n' : Nat} {t t' : TExp} {es es' : List Nat} {C C' : Ty} {S S' : Sem}
    (hf : Flat P t) (hs : Scoped P es t) (h : canon P n t = .ok C) (hS : DenT P [] t S)
    (hf' : Flat P t') (hs' : Scoped P es' t') (h' : canon P n' t' = .ok C') (hS' : DenT P [] t' S')
    (hr : ∀ d ∈ heads C, isSomeResultDecl P d = true → Own P d) (hr' : ∀ d ∈ heads C', isSomeResultDecl P d = true → Own P d) :
    C = C' ↔ S = S' := by
  obtain ⟨k1, -, k3⟩ := (all wf fl n).canon hf hs (.inr (.inl rfl)) h hS
  obtain ⟨l1, -, l3⟩ := (all wf fl n').canon hf' hs' (.inr (.inl rfl)) h' hS'
  constructor
  · rintro rfl; exact k1.det wf l1
  · rintro rfl; exact (k3.nfc hr).den wf (l3.nfc hr') k1 l1

/-! ## The example: the modules of examples/test-canonicals.aps, shortened -/

/-- `0` String, `1` Integer, `2` GEN (a generating module), `3` EXT (`extends T`), `50 G0 := GEN[String]`, `51 E0 := EXT[String]`,
`52 H0 := GEN[Integer]`, `53 X := G0$C`. In GEN: `10 T`, `11 Result`, `12 A := T`, `13 B := Integer`, `14 C`,
`15 D := Result`, `16 I := GEN[A]`, `17 M := EXT[C]`, `18 FT := function(A, C, D) : I`, `20 Y := E0$C`,
`21 Z := M$C`. In EXT: `30 T`, `31 Result := T`, `34 C`, `35 D := Result`, `36 I := GEN[T]`; `37` is given. -/
def exDecl (f : Info) : Nat → Info
  | 0 => .type .opq
  | 1 => .type .opq
  | 2 => .module_ true 11 [10]
  | 3 => .module_ false 31 [30]
  | 10 => .formal false
  | 11 => .type .opq
  | 12 => .type (.use 10)
  | 13 => .type (.use 1)
  | 14 => .type .opq
  | 15 => .type (.use 11)
  | 16 => .type (.inst 2 [.use 12])
  | 17 => .type (.inst 3 [.use 14])
  | 18 => .type (.func [.use 12, .use 14, .use 15] (.use 16))
  | 20 => .type (.qual (.use 51) 34)
  | 21 => .type (.qual (.use 17) 34)
  | 30 => .formal false
  | 31 => .type (.use 30)
  | 34 => .type .opq
  | 35 => .type (.use 31)
  | 36 => .type (.inst 2 [.use 30])
  | 37 => f
  | 50 => .type (.inst 2 [.use 0])
  | 51 => .type (.inst 3 [.use 0])
  | 52 => .type (.inst 2 [.use 1])
  | 53 => .type (.qual (.use 50) 14)
  | _ => .other

/-- which module each is declared in -/
def exEncl (d : Nat) : List Nat := if 10 ≤ d ∧ d < 30 then [2] else if 30 ≤ d ∧ d < 50 then [3] else []

/-- the program -/
def exProg : Prog := ⟨exDecl .other, exEncl⟩

/-- the program with `37 F := function(Result) : Result` in EXT -/
def exProg2 : Prog := ⟨exDecl (.type (.func [.use 31] (.use 31))), exEncl⟩

theorem exProg_wf : WellFormed exProg where
  unnested d := by simp only [exProg, exEncl]; split <;> [simp; (split <;> simp)]
  result m g r fs h := by
    simp only [exProg, exDecl] at h
    split at h <;> simp at h
    · obtain ⟨rfl, rfl, rfl⟩ := h; exact ⟨rfl, _, rfl⟩
    · obtain ⟨rfl, rfl, rfl⟩ := h; exact ⟨rfl, _, rfl⟩
  formals m g r fs h := by
    simp only [exProg, exDecl] at h
    split at h <;> simp at h
    · obtain ⟨rfl, rfl, rfl⟩ := h; simp
    · obtain ⟨rfl, rfl, rfl⟩ := h; simp
  aliases d t h := by
    cases h with
    | use h =>
      simp only [exProg, exDecl] at h
      split at h <;> simp at h <;> subst h <;> exact .use (by simp [exProg, exEncl])
    | qual h =>
      simp only [exProg, exDecl] at h
      split at h <;> simp at h <;> obtain ⟨rfl, rfl⟩ := h <;> exact .qual (.use (by simp [exProg, exEncl]))
    | func h =>
      simp only [exProg, exDecl] at h
      split at h <;> simp at h <;> obtain ⟨rfl, rfl⟩ := h
      refine .func ?_ (.use (by simp [exProg, exEncl]))
      intro t ht
      simp only [List.mem_cons, List.not_mem_nil, or_false] at ht
      rcases ht with rfl | rfl | rfl <;> exact .use (by simp [exProg, exEncl])
    | renamed h =>
      simp only [exProg, exDecl] at h
      split at h <;> simp at h
  actuals T m as h a ha := by
    simp only [exProg, exDecl] at h
    split at h <;> simp at h <;> obtain ⟨rfl, rfl⟩ := h <;> simp at ha <;> subst ha <;> exact .use (by simp [exProg, exEncl])

theorem exProg2_wf : WellFormed exProg2 where
  unnested d := by simp only [exProg2, exEncl]; split <;> [simp; (split <;> simp)]
  result m g r fs h := by
    simp only [exProg2, exDecl] at h
    split at h <;> simp at h
    · obtain ⟨rfl, rfl, rfl⟩ := h; exact ⟨rfl, _, rfl⟩
    · obtain ⟨rfl, rfl, rfl⟩ := h; exact ⟨rfl, _, rfl⟩
  formals m g r fs h := by
    simp only [exProg2, exDecl] at h
    split at h <;> simp at h
    · obtain ⟨rfl, rfl, rfl⟩ := h; simp
    · obtain ⟨rfl, rfl, rfl⟩ := h; simp
  aliases d t h := by
    cases h with
    | use h =>
      simp only [exProg2, exDecl] at h
      split at h <;> simp at h <;> subst h <;> exact .use (by simp [exProg2, exEncl])
    | qual h =>
      simp only [exProg2, exDecl] at h
      split at h <;> simp at h <;> obtain ⟨rfl, rfl⟩ := h <;> exact .qual (.use (by simp [exProg2, exEncl]))
    | func h =>
      simp only [exProg2, exDecl] at h
      split at h <;> simp at h <;> obtain ⟨rfl, rfl⟩ := h
      · refine .func ?_ (.use (by simp [exProg2, exEncl]))
        intro t ht
        simp only [List.mem_cons, List.not_mem_nil, or_false] at ht
        rcases ht with rfl | rfl | rfl <;> exact .use (by simp [exProg2, exEncl])
      · refine .func ?_ (.use (by simp [exProg2, exEncl]))
        intro t ht
        simp only [List.mem_cons, List.not_mem_nil, or_false] at ht
        subst ht; exact .use (by simp [exProg2, exEncl])
    | renamed h =>
      simp only [exProg2, exDecl] at h
      split at h <;> simp at h
  actuals T m as h a ha := by
    simp only [exProg2, exDecl] at h
    split at h <;> simp at h <;> obtain ⟨rfl, rfl⟩ := h <;> simp at ha <;> subst ha <;> exact .use (by simp [exProg2, exEncl])

theorem exPlain (T : Nat) (hi : ((instance? exProg T).isSome && !isSomeResultDecl exProg T) = true) : PlainInst exProg T := by
  simp only [Bool.and_eq_true, Bool.not_eq_true'] at hi
  obtain ⟨h1, h2⟩ := hi
  obtain ⟨⟨m, g, r, fs, as⟩, h1⟩ := Option.isSome_iff_exists.1 h1
  obtain ⟨k1, k2⟩ := instance?_some h1
  exact ⟨⟨m, r, fs, as, k1, g, k2⟩, h2⟩

theorem exProg_flat : FlatProg exProg where
  aliases d t h := by
    cases h with
    | use h =>
      have h' := h
      simp only [exProg, exDecl] at h
      split at h <;> simp at h <;> subst h <;>
        first
          | exact .inr ⟨_, h', rfl⟩
          | exact .inl (.use (fun x => absurd x (by decide)))
    | qual h =>
      simp only [exProg, exDecl] at h
      split at h <;> simp at h <;> obtain ⟨rfl, rfl⟩ := h <;>
        exact .inl (.qual (exPlain _ rfl) rfl (.own (.inl rfl) (by simp)))
    | func h =>
      simp only [exProg, exDecl] at h
      split at h <;> simp at h <;> obtain ⟨rfl, rfl⟩ := h
      refine .inl (.func ?_ (.use (fun x => absurd x (by decide))))
      intro t ht
      simp only [List.mem_cons, List.not_mem_nil, or_false] at ht
      rcases ht with rfl | rfl | rfl <;> exact .use (fun x => absurd x (by decide))
    | renamed h =>
      simp only [exProg, exDecl] at h
      split at h <;> simp at h
  actuals T m as h a ha := by
    simp only [exProg, exDecl] at h
    split at h <;> simp at h <;> obtain ⟨rfl, rfl⟩ := h <;> simp at ha <;> subst ha <;> exact .use (fun x => absurd x (by decide))

/-- What an expression means, by evaluation. -/
theorem exDen {P : Prog} {t : TExp} {S : Sem} (h : evalT P 40 [] t = some S) : DenT P [] t S := (eval_sound 40).2.1 _ _ _ h

/-- Non-vacuity of `C85_meaning_partial` and `C85_identity_partial`: `G0$FT`, whose canonical type is `(String, G0$C, G0) => G0$I`. -/
example : DenT exProg [] (.qual (.use 50) 18) (.func [.named [0], .named [14, 50], .named [50]] (.named [16, 50])) ∧
    canon exProg 40 (.qual (.use 50) 18) = .ok (.func [.use 0, .qual (.use 50) 14, .use 50] (.qual (.use 50) 16)) ∧
    Flat exProg (.qual (.use 50) 18) ∧ Scoped exProg [] (.qual (.use 50) 18) := by
  refine ⟨exDen (by with_unfolding_all rfl), by with_unfolding_all rfl, .qual (exPlain _ rfl) rfl (.func (.func rfl) (.func ?_ (.use (fun x => absurd x (by decide)) (.own (.inr ⟨_, _, rfl⟩) (by simp))))),
    .qual (.use (.inl rfl))⟩
  intro t ht
  simp only [List.mem_cons, List.not_mem_nil, or_false] at ht
  rcases ht with rfl | rfl | rfl
  · exact .use (fun x => absurd x (by decide)) (.use (.use rfl) rfl (.formal rfl))
  · exact .use (fun x => absurd x (by decide)) (.own (.inl rfl) (by simp))
  · exact .use (fun x => absurd x (by decide)) (.result rfl rfl rfl)

/-- Two `$`: `G0$M$T`, which is `G0$C`. -/
example : DenT exProg [] (.qual (.qual (.use 50) 17) 30) (.named [14, 50]) ∧
    canon exProg 40 (.qual (.qual (.use 50) 17) 30) = .ok (.qual (.use 50) 14) ∧
    Flat exProg (.qual (.qual (.use 50) 17) 30) ∧ Scoped exProg [] (.qual (.qual (.use 50) 17) 30) := by
  refine ⟨exDen (by with_unfolding_all rfl), by with_unfolding_all rfl, .qual2 (exPlain _ rfl) (exPlain _ rfl) rfl (.formal rfl) ?_, .qual (.qual (.use (.inl rfl)))⟩
  intro m as h a ha
  simp only [exProg, exDecl, Info.type.injEq, TExp.inst.injEq] at h
  obtain ⟨rfl, rfl⟩ := h
  simp only [List.mem_cons, List.not_mem_nil, or_false] at ha
  subst ha
  exact .use (fun x => absurd x (by decide)) (.own (.inl rfl) (by simp))

/-- The unrestricted claim. -/
def MeaningKept : Prop :=
  ∀ (P : Prog) (n : Nat) (t : TExp) (es : List Nat) (C : Ty) (S : Sem), WellFormed P → Scoped P es t → canon P n t = .ok C → DenT P [] t S →
    DenT P [] (toExp C) S

/-- **C85 refuted: the result of a nested instance.** `G0$I$D` and `H0$I$D` (with `type D := Result`) are different types, namely
`G0$I` and `H0$I`, but both get the canonical type `I`. -/
theorem C85_nested_result_refuted : ¬ MeaningKept ∧
    canon exProg 40 (.qual (.qual (.use 50) 16) 15) = .ok (.use 16) ∧ canon exProg 40 (.qual (.qual (.use 52) 16) 15) = .ok (.use 16) ∧
    DenT exProg [] (.qual (.qual (.use 50) 16) 15) (.named [16, 50]) ∧ DenT exProg [] (.qual (.qual (.use 52) 16) 15) (.named [16, 52]) := by
  refine ⟨fun h => ?_, by with_unfolding_all rfl, by with_unfolding_all rfl, exDen (by with_unfolding_all rfl), exDen (by with_unfolding_all rfl)⟩
  have h1 := h exProg 40 (.qual (.qual (.use 50) 16) 15) [] (.use 16) (.named [16, 50]) exProg_wf (.qual (.qual (.use (.inl rfl)))) (by with_unfolding_all rfl) (exDen (by with_unfolding_all rfl))
  have h2 : DenT exProg [] (toExp (.use 16)) (.named [16]) := exDen (by with_unfolding_all rfl)
  simpa using h1.det exProg_wf h2

/-- **C85 refuted: three `$`.** `G0$I$I$C` is not `G0$I$I$I$C`, but `G0$I$I$I` and `G0$I$I` have one canonical type. -/
theorem C85_three_levels_refuted :
    canon exProg 40 (.qual (.qual (.qual (.use 50) 16) 16) 16) = .ok (.qual (.qual (.use 50) 16) 16) ∧
    canon exProg 40 (.qual (.qual (.use 50) 16) 16) = .ok (.qual (.qual (.use 50) 16) 16) ∧
    DenT exProg [] (.qual (.qual (.qual (.use 50) 16) 16) 16) (.named [16, 16, 16, 50]) ∧
    DenT exProg [] (.qual (.qual (.use 50) 16) 16) (.named [16, 16, 50]) :=
  ⟨by with_unfolding_all rfl, by with_unfolding_all rfl, exDen (by with_unfolding_all rfl), exDen (by with_unfolding_all rfl)⟩

/-- **C85 refuted: a qualified definition inside a module.** `type Z := M$C` in GEN: `G0$I$Z` and `H0$I$Z` are different types but
both get the canonical type `C` (of EXT, without an instance). -/
theorem C85_nested_qual_refuted :
    canon exProg 40 (.qual (.qual (.use 50) 16) 21) = .ok (.use 34) ∧ canon exProg 40 (.qual (.qual (.use 52) 16) 21) = .ok (.use 34) ∧
    DenT exProg [] (.qual (.qual (.use 50) 16) 21) (.named [34, 17, 16, 50]) ∧
    DenT exProg [] (.qual (.qual (.use 52) 16) 21) (.named [34, 17, 16, 52]) :=
  ⟨by with_unfolding_all rfl, by with_unfolding_all rfl, exDen (by with_unfolding_all rfl), exDen (by with_unfolding_all rfl)⟩

/-- **C85 refuted: a global qualified name inside a module.** `type Y := E0$C` in GEN: `G0$Y` and `E0$C` are the same type but have
different canonical types, `G0$E0$C` and `E0$C`. -/
theorem C85_global_qual_refuted :
    canon exProg 40 (.qual (.use 50) 20) = .ok (.qual (.qual (.use 50) 51) 34) ∧ canon exProg 40 (.qual (.use 51) 34) = .ok (.qual (.use 51) 34) ∧
    DenT exProg [] (.qual (.use 50) 20) (.named [34, 51]) ∧ DenT exProg [] (.qual (.use 51) 34) (.named [34, 51]) :=
  ⟨by with_unfolding_all rfl, by with_unfolding_all rfl, exDen (by with_unfolding_all rfl), exDen (by with_unfolding_all rfl)⟩

/-- **C85 refuted: the result named directly.** In a module with `extends T`, `type F := function(Result) : Result` has the canonical
type `(T) => T` (so `E0$F` is `(String) => String`), while with `type D := Result` the same function type keeps `Result`. -/
theorem C85_direct_result_refuted : WellFormed exProg2 ∧
    canon exProg2 40 (.qual (.use 51) 37) = .ok (.func [.use 0] (.use 0)) ∧
    DenT exProg2 [] (.qual (.use 51) 37) (.func [.named [51]] (.named [51])) ∧
    canon exProg2 40 (.qual (.use 51) 35) = .ok (.use 51) ∧
    canon exProg2 40 (.use 35) = .ok (.use 31) ∧ canon exProg2 40 (.use 31) = .ok (.use 30) :=
  ⟨exProg2_wf, by with_unfolding_all rfl, exDen (by with_unfolding_all rfl), by with_unfolding_all rfl, by with_unfolding_all rfl, by with_unfolding_all rfl⟩

end Aps.Props
