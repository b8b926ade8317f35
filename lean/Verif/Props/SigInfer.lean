import Verif.Proofs.SigInfer
/-! # C87 — the signatures of a type (analyze/canonical-signature.c) -/
namespace Aps.Props
open Aps.CType Aps.CanonTy Aps.SigInfer

/-- **C87 (instances), partial.** For a type declared as an instance `T := M[as]`: if (the base types of) the actuals are `bs`, the signature
written for `T` gives `ds` and the result type of `M` has the signatures `rs`, then `T` has exactly: `M[bs]`; `ds`; and those
of `rs` with the formals of `M` replaced by `bs`, all at once. Needed: neither `bs` nor `ds` use formals of `M` (which happens
only inside of `M`), and `rs` uses them only as such. Missing: refuted below. -/
theorem C87_instance_partial {P : SProg} {n k T m r : Nat} {as : List TExp} {fs : List Nat} {bs : List Ty} {ds rs l : List Sig}
    (hd : P.decl T = .type (.inst m as)) (hc : P.cls m = some (r, fs)) (nd : fs.Nodup) (hl : as.length = fs.length)
    (hb : basesOf P k as = .ok bs) (hs : fromSig P k (P.sig T) = .ok ds) (hr : fromDecl P k r = .ok rs)
    (ab : Apart fs bs) (ad : ∀ s ∈ ds, Apart fs s.actuals) (pr : ∀ s ∈ rs, Plain fs s.actuals)
    (h : fromDecl P n T = .ok l) (s : Sig) : s ∈ l ↔ s = ⟨true, true, m, bs⟩ ∨ s ∈ ds ∨ ∃ s0 ∈ rs, SigReplaced fs bs s0 s :=
  instance_sigs hd hc nd hl hb hs hr ab ad pr h s

/-- **C87 (base types).** A declared type has its own signatures and those of its base type, no others; however much work (fuel) each of
these takes. -/
theorem C87_base {P : SProg} {n k j i d : Nat} {b : Ty} {l own lb : List Sig} (h : infer P n (.use d) = .ok l) (ho : fromDecl P k d = .ok own)
    (hb : baseType P.toProg j (.use d) = .ok b) (hl : infer P i b = .ok lb) (s : Sig) : s ∈ l ↔ s ∈ own ∨ s ∈ lb :=
  infer_use h ho hb hl s

/-- **C87 (one result).** The canonical type, the base type and the signatures do not depend on the fuel of the model. -/
theorem C87_deterministic {P : SProg} {n n' : Nat} :
    (∀ {t : TExp} {c c' : Ty}, canon P.toProg n t = .ok c → canon P.toProg n' t = .ok c' → c = c') ∧
    (∀ {t c c' : Ty}, baseType P.toProg n t = .ok c → baseType P.toProg n' t = .ok c' → c = c') ∧
    (∀ {c : Ty} {l l' : List Sig}, infer P n c = .ok l → infer P n' c = .ok l' → l = l') :=
  ⟨fun h h' => canon_det h h', fun h h' => base_det h h', fun h h' => infer_det h h'⟩

/-- `0 Integer`, `5 TYPE`, `6 PHYLUM`; `class 1 COLLECTION[21 T]` with result `20`; `module 2 LIST[31 E] :: COLLECTION[E]` with result `30`;
`module 3 PAIR[41 A, 42 B]` with result `40`, in it `43 I := PAIR[B, A]`; `module 4 EXT[61 T] extends T` with result `60`;
`50 L := LIST[Integer]`, `51 M := EXT[L]`, `52 E1 := EXT[E2]`, `53 E2 := EXT[E1]`. -/
def sgDecl : Nat → Info
  | 0 => .type .opq
  | 2 => .module_ true 30 [31]
  | 3 => .module_ true 40 [41, 42]
  | 4 => .module_ false 60 [61]
  | 20 => .type .opq
  | 21 => .formal false
  | 30 => .type .opq
  | 31 => .formal false
  | 40 => .type .opq
  | 41 => .formal false
  | 42 => .formal false
  | 43 => .type (.inst 3 [.use 42, .use 41])
  | 60 => .type (.use 61)
  | 61 => .formal false
  | 50 => .type (.inst 2 [.use 0])
  | 51 => .type (.inst 4 [.use 50])
  | 52 => .type (.inst 4 [.use 53])
  | 53 => .type (.inst 4 [.use 52])
  | _ => .other

/-- the program -/
def sgProg : SProg where
  decl := sgDecl
  encl d := if d = 30 ∨ d = 31 then [2] else if 40 ≤ d ∧ d < 50 then [3] else if d = 60 ∨ d = 61 then [4] else []
  sig d := if d = 30 then .inst false false 1 [.use 31] else .none_
  phylum _ := false
  cls m := if m = 1 then some (20, [21]) else if m = 2 then some (30, [31]) else if m = 3 then some (40, [41, 42])
    else if m = 4 then some (60, [61]) else none
  TYPE := 5
  PHYLUM := 6

/-- Non-vacuity of `C87_instance_partial`: `L := LIST[Integer]` has `LIST[Integer]`, `COLLECTION[Integer]` and `TYPE[]`. -/
example : sgProg.decl 50 = .type (.inst 2 [.use 0]) ∧ sgProg.cls 2 = some (30, [31]) ∧ basesOf sgProg 30 [.use 0] = .ok [.use 0] ∧
    fromSig sgProg 30 (sgProg.sig 50) = .ok [] ∧
    fromDecl sgProg 30 30 = .ok [⟨false, false, 1, [.use 31]⟩, ⟨true, true, 5, []⟩, ⟨true, true, 5, []⟩] ∧
    Apart [31] [.use 0] ∧ (∀ s ∈ ([⟨false, false, 1, [.use 31]⟩, ⟨true, true, 5, []⟩, ⟨true, true, 5, []⟩] : List Sig), Plain [31] s.actuals) ∧
    fromDecl sgProg 30 50 = .ok [⟨true, true, 2, [.use 0]⟩, ⟨false, false, 1, [.use 0]⟩, ⟨true, true, 5, []⟩, ⟨true, true, 5, []⟩] := by
  refine ⟨rfl, rfl, by with_unfolding_all rfl, by with_unfolding_all rfl, by with_unfolding_all rfl, ?_, ?_, by with_unfolding_all rfl⟩
  · rintro c hc f hf (h | ⟨s, h⟩)
    · simp at hc hf; subst hc; subst hf; simp at h
    · simp at hc; subst hc; simp at h
  · intro s hs c hc f hf q
    simp only [List.mem_cons, List.not_mem_nil, or_false] at hs
    rcases hs with rfl | rfl | rfl <;> simp at hc
    subst hc; simp

/-- Non-vacuity of `C87_base`: `M := EXT[L]` has `EXT[L]` and the signatures of `L`. -/
example : infer sgProg 30 (.use 51) = .ok [⟨true, true, 4, [.use 50]⟩, ⟨true, true, 2, [.use 0]⟩, ⟨false, false, 1, [.use 0]⟩, ⟨true, true, 5, []⟩, ⟨true, true, 5, []⟩] ∧
    fromDecl sgProg 30 51 = .ok [⟨true, true, 4, [.use 50]⟩] ∧ baseType sgProg.toProg 30 (.use 51) = .ok (.use 50) ∧
    infer sgProg 30 (.use 50) = .ok [⟨true, true, 2, [.use 0]⟩, ⟨false, false, 1, [.use 0]⟩, ⟨true, true, 5, []⟩, ⟨true, true, 5, []⟩] :=
  ⟨by with_unfolding_all rfl, by with_unfolding_all rfl, by with_unfolding_all rfl, by with_unfolding_all rfl⟩

/-- **C87 refuted: an instance inside of its module.** In `module PAIR[A, B]`, the type `I := PAIR[B, A]` gets the signature `PAIR[A, B]`: the formals
are replaced in the actuals, too. -/
theorem C87_swap_refuted : basesOf sgProg 30 [.use 42, .use 41] = .ok [.use 42, .use 41] ∧
    fromDecl sgProg 30 43 = .ok [⟨true, true, 3, [.use 41, .use 42]⟩, ⟨true, true, 5, []⟩] :=
  ⟨by with_unfolding_all rfl, by with_unfolding_all rfl⟩

/-- **C87 refuted: inference need not end.** With `type E1 := EXT[E2]; type E2 := EXT[E1]`, each is the base type of the other, and
the loop never ends. -/
theorem C87_ends_refuted (n : Nat) : (∀ l, infer sgProg n (.use 52) ≠ .ok l) ∧ (∀ l, infer sgProg n (.use 53) ≠ .ok l) := by
  have b52 : baseType sgProg.toProg 30 (.use 52) = .ok (.use 53) := by with_unfolding_all rfl
  have b53 : baseType sgProg.toProg 30 (.use 53) = .ok (.use 52) := by with_unfolding_all rfl
  induction n with
  | zero => constructor <;> (intro l h; simp [infer] at h)
  | succ n ih =>
    constructor
    · intro l h
      simp only [infer] at h
      obtain ⟨r, h1, h⟩ := Res.bind_eq_ok.1 h
      obtain ⟨b, h2, h3⟩ := Res.bind_eq_ok.1 h
      cases base_det h2 b52
      simp only [tyEq, Nat.reduceBEq, Bool.false_eq_true, if_false] at h3
      obtain ⟨m, h4, -⟩ := Res.bind_eq_ok.1 h3
      exact ih.2 m h4
    · intro l h
      simp only [infer] at h
      obtain ⟨r, h1, h⟩ := Res.bind_eq_ok.1 h
      obtain ⟨b, h2, h3⟩ := Res.bind_eq_ok.1 h
      cases base_det h2 b53
      simp only [tyEq, Nat.reduceBEq, Bool.false_eq_true, if_false] at h3
      obtain ⟨m, h4, -⟩ := Res.bind_eq_ok.1 h3
      exact ih.1 m h4

end Aps.Props
