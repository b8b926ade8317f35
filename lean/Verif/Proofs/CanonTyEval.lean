import Verif.Proofs.CanonTyDet
/-! An evaluator for the meaning of type expressions, for the examples of C85. -/
namespace Aps.CanonTy
open Aps.CType
set_option linter.unusedVariables false
variable (P : Prog)

/-- is `d` the result of the module of the innermost instance? -/
def resultInB (p : List Nat) (d : Nat) : Bool :=
  match p with
  | [] => false
  | T :: _ =>
    match instance? P T with
    | some (_, _, r, _, _) => d == r
    | none => false

/-- position of a formal -/
def posOf (d : Nat) : List Nat → Option Nat
  | [] => none
  | f :: fs => if f = d then some 0 else (posOf d fs).map (· + 1)

mutual
def evalD : Nat → List Nat → Nat → Option Sem
  | 0, _, _ => none
  | n + 1, p, d =>
    let q := home P p d
    if resultInB P q d then some (.named q)
    else
      match P.decl d with
      | .formal _ =>
        match q with
        | [] => some (.named [d])
        | T :: q =>
          match instance? P T with
          | some (_, _, _, fs, as) =>
            match posOf d fs with
            | some i =>
              match as[i]? with
              | some a => evalT n q a
              | none => none
            | none => none
          | none => none
      | .type .opq => some (.named (d :: q))
      | .type (.inst ..) => some (.named (d :: q))
      | .type (.use e) => evalT n q (.use e)
      | .type (.qual t e) => evalT n q (.qual t e)
      | .type (.func ps r) => evalT n q (.func ps r)
      | .renaming t => evalT n q t
      | _ => none
def evalT : Nat → List Nat → TExp → Option Sem
  | 0, _, _ => none
  | n + 1, p, .use d => evalD n p d
  | n + 1, p, .qual t d =>
    match evalT n p t with
    | some (.named (T :: q)) =>
      match instance? P T with
      | some (m, _) => if m ∈ P.encl d then evalD n (T :: q) d else none
      | none => none
    | _ => none
  | n + 1, p, .remote t => evalT n p t
  | n + 1, p, .func ps r =>
    match evalT n p r, evalL n p ps with
    | some S, some Ss => some (.func Ss S)
    | _, _ => none
  | _ + 1, _, _ => none
def evalL : Nat → List Nat → List TExp → Option (List Sem)
  | 0, _, _ => none
  | _ + 1, _, [] => some []
  | n + 1, p, t :: ts =>
    match evalT n p t, evalL n p ts with
    | some S, some Ss => some (S :: Ss)
    | _, _ => none
end

variable {P}

theorem resultInB_iff {p : List Nat} {d : Nat} : resultInB P p d = true ↔ ResultIn P p d := by
  constructor
  · intro h
    unfold resultInB at h
    split at h
    · cases h
    · split at h
      · rename_i T q x m g r fs as hi
        obtain ⟨h1, h2⟩ := instance?_some hi
        exact ⟨T, q, m, r, fs, as, rfl, ⟨h1, g, h2⟩, by simpa using h⟩
      · cases h
  · rintro ⟨T, q, m, r, fs, as, rfl, ⟨h1, g, h2⟩, rfl⟩
    simp [resultInB, instance?, h1, h2]

theorem posOf_spec {d : Nat} : ∀ {fs : List Nat} {i : Nat}, posOf d fs = some i → fs[i]? = some d
  | [], i, h => by simp [posOf] at h
  | f :: fs, i, h => by
    simp only [posOf] at h
    split at h
    · cases h; simp_all
    · rw [Option.map_eq_some_iff] at h
      obtain ⟨j, hj, rfl⟩ := h
      simpa using posOf_spec hj

theorem eval_sound (n : Nat) :
    (∀ p d S, evalD P n p d = some S → DenD P p d S) ∧ (∀ p t S, evalT P n p t = some S → DenT P p t S) ∧
    (∀ p ts Ss, evalL P n p ts = some Ss → DenL P p ts Ss) := by
  induction n with
  | zero => refine ⟨?_, ?_, ?_⟩ <;> intros <;> simp_all [evalD, evalT, evalL]
  | succ n ih =>
    obtain ⟨i1, i2, i3⟩ := ih
    refine ⟨?_, ?_, ?_⟩
    · intro p d S h
      unfold evalD at h
      simp only at h
      split at h
      · rename_i hr
        cases h
        exact .result (resultInB_iff.1 hr)
      · rename_i hr
        have hr' : ¬ ResultIn P (home P p d) d := fun x => hr (resultInB_iff.2 x)
        split at h
        · rename_i b hf
          split at h
          · rename_i hh; cases h; exact .free hh hf
          · rename_i T q hh
            split at h
            · rename_i m g r fs as hi
              obtain ⟨h1, h2⟩ := instance?_some hi
              split at h
              · rename_i i hp
                split at h
                · rename_i a ha
                  exact .formal hh ⟨h1, g, h2⟩ hf (posOf_spec hp) ha (i2 _ _ _ h)
                · cases h
              · cases h
            · cases h
        · rename_i he; cases h; exact .own (.inl he) hr'
        · rename_i he; cases h; exact .own (.inr ⟨_, _, he⟩) hr'
        · rename_i he; exact .alias_ (.use he) hr' (i2 _ _ _ h)
        · rename_i he; exact .alias_ (.qual he) hr' (i2 _ _ _ h)
        · rename_i he; exact .alias_ (.func he) hr' (i2 _ _ _ h)
        · rename_i he; exact .alias_ (.renamed he) hr' (i2 _ _ _ h)
        · cases h
    · intro p t S h
      cases t with
      | opq => simp [evalT] at h
      | inst => simp [evalT] at h
      | use d => simp only [evalT] at h; exact .use (i1 _ _ _ h)
      | qual t d =>
        simp only [evalT] at h
        split at h
        · rename_i T q ht
          split at h
          · rename_i m x hi
            obtain ⟨g, r, fs, as⟩ := x
            obtain ⟨h1, h2⟩ := instance?_some hi
            split at h
            · rename_i hm
              exact .qual (i2 _ _ _ ht) ⟨h1, g, h2⟩ hm (i1 _ _ _ h)
            · cases h
          · cases h
        · cases h
      | func ps r =>
        simp only [evalT] at h
        split at h
        · rename_i S' Ss' h1 h2
          cases h
          have := i3 _ _ _ h2
          exact .func (i2 _ _ _ h1) this.1 this.2
        · cases h
      | remote t => simp only [evalT] at h; exact .remote (i2 _ _ _ h)
    · intro p ts Ss h
      cases ts with
      | nil => simp only [evalL] at h; cases h; exact .nil
      | cons t ts =>
        simp only [evalL] at h
        split at h
        · rename_i S' Ss' h1 h2
          cases h
          exact .cons (i2 _ _ _ h1) (i3 _ _ _ h2)
        · cases h

end Aps.CanonTy
