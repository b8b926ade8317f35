import Verif.Spec.Qual
import Verif.Proofs.Bind
import Mathlib.Tactic.Common
/-! # Proofs about the services of a type -/
namespace Aps.Qual
open Aps.Bind (Chain Info flatC)

theorem addPublic_eq (is sc : List Info) : addPublic is sc = is.reverse ++ sc := by
  unfold addPublic
  induction is generalizing sc with
  | nil => rfl
  | cons i is ih => simp [ih]

theorem flatC_append (a b : Chain) : flatC (a ++ b) = flatC a ++ flatC b := by simp [flatC]
theorem flatC_cons (f : List Info) (b : Chain) : flatC (f :: b) = f.reverse ++ flatC b := by simp [flatC]

theorem go_frames {P : Prog} (hd : ∀ c, P.done c = true) : ∀ fuel j acc out, go P fuel j acc = .ok out →
    ∃ ch, Frames P j ch ∧ out = flatC ch ++ acc := by
  intro fuel
  induction fuel with
  | zero => intro j acc out h; simp [go] at h
  | succ fuel ih =>
    have nil : ∀ {j : Job} {acc out : List Info}, Frames P j [] → Res.ok acc = Res.ok out →
        ∃ ch, Frames P j ch ∧ out = flatC ch ++ acc := by
      intro j acc out hf h; cases h; exact ⟨[], hf, rfl⟩
    have sub : ∀ {j j' : Job} {acc out : List Info}, (∀ ch, Frames P j' ch → Frames P j ch) → go P fuel j' acc = .ok out →
        ∃ ch, Frames P j ch ∧ out = flatC ch ++ acc := by
      intro j j' acc out hf h
      obtain ⟨ch, h1, h2⟩ := ih _ _ _ h
      exact ⟨ch, hf ch h1, h2⟩
    intro j acc out h
    match j with
    | .inst none => simp [go] at h
    | .inst (some c) =>
      simp only [go, hd, if_true] at h
      cases hC : P.cls c with
      | none => rw [hC] at h; cases h
      | some C =>
        rw [hC] at h
        obtain ⟨s1, g1, h⟩ := Res.bind_eq_ok.1 h
        obtain ⟨s2, g2, h⟩ := Res.bind_eq_ok.1 h
        cases h
        obtain ⟨a, h1, rfl⟩ := ih _ _ _ g1
        obtain ⟨b, h2, rfl⟩ := ih _ _ _ g2
        refine ⟨_, .inst hC h1 h2, ?_⟩
        rw [addPublic_eq, flatC_cons, flatC_append]; simp
    | .formals [] => exact nil .formalsNil h
    | .formals (f :: fs) =>
      simp only [go] at h
      by_cases he : f.extended = true
      · rw [if_pos he] at h
        obtain ⟨s1, g1, g2⟩ := Res.bind_eq_ok.1 h
        by_cases hp : f.phylum = true
        · rw [if_pos hp] at g1; cases g1
        · rw [if_neg hp] at g1
          obtain ⟨a, h1, rfl⟩ := ih _ _ _ g1
          obtain ⟨b, h2, rfl⟩ := ih _ _ _ g2
          refine ⟨_, .extended he (by simpa using hp) h1 h2, ?_⟩
          rw [flatC_append]; simp
      · rw [if_neg he] at h
        exact sub (fun ch => .plain (by simpa using he)) h
    | .result true (.inst m) => exact sub (fun ch => .extends_) h
    | .result false t => exact nil (.resultOther (by simp)) (by cases t <;> exact h)
    | .result true .noType => exact nil (.resultOther (by simp)) h
    | .result true .func => exact nil (.resultOther (by simp)) h
    | .result true (.use _) => exact nil (.resultOther (by simp)) h
    | .result true (.remote _) => exact nil (.resultOther (by simp)) h
    | .result true (.priv _) => exact nil (.resultOther (by simp)) h
    | .sig (.use d) =>
      simp only [go] at h
      cases hs : P.sig d with
      | decl s => rw [hs] at h; exact sub (fun ch => .sigDecl hs) h
      | «renaming» s => rw [hs] at h; exact sub (fun ch => .sigRenaming hs) h
      | other => rw [hs] at h; exact nil (.sigOther hs) h
    | .sig (.inst (some c)) => exact sub (fun ch => .sigInst) h
    | .sig (.inst none) => simp [go] at h
    | .sig (.mult s1 s2) =>
      obtain ⟨s1, g1, g2⟩ := Res.bind_eq_ok.1 h
      obtain ⟨a, h1, rfl⟩ := ih _ _ _ g1
      obtain ⟨b, h2, rfl⟩ := ih _ _ _ g2
      refine ⟨_, .mult h1 h2, ?_⟩
      rw [flatC_append]; simp
    | .sig .fixed => exact nil .fixed h
    | .sig .none => exact nil .noSig h
    | .ty (.use none) => exact nil .unbound h
    | .ty (.use (some d)) =>
      simp only [go] at h
      cases hu : P.tdef d with
      | typeDecl t =>
        rw [hu] at h
        match t with
        | .noType => exact sub (fun ch => .typePlain hu) h
        | .inst none => exact nil (.typeUnbound hu) h
        | .inst (some m) => exact sub (fun ch => .typeInst hu) h
        | .remote t => exact sub (fun ch => .typeOther hu (by simp) (by simp)) h
        | .priv t => exact sub (fun ch => .typeOther hu (by simp) (by simp)) h
        | .func => exact sub (fun ch => .typeOther hu (by simp) (by simp)) h
        | .use _ => exact sub (fun ch => .typeOther hu (by simp) (by simp)) h
      | phylumDecl t =>
        rw [hu] at h
        match t with
        | .noType => exact sub (fun ch => .phylumPlain hu) h
        | .inst m => exact sub (fun ch => .phylumInst hu) h
        | .remote t => exact sub (fun ch => .phylumOther hu (by simp) (by simp)) h
        | .priv t => exact sub (fun ch => .phylumOther hu (by simp) (by simp)) h
        | .func => exact sub (fun ch => .phylumOther hu (by simp) (by simp)) h
        | .use _ => exact sub (fun ch => .phylumOther hu (by simp) (by simp)) h
      | «renaming» t => rw [hu] at h; exact sub (fun ch => .typeRenaming hu) h
      | formal s => rw [hu] at h; exact sub (fun ch => .formal hu) h
      | other => rw [hu] at h; exact nil (.other hu) h
    | .ty (.inst _) => exact nil .tyInst h
    | .ty (.remote t) => exact sub (fun ch => .remote) h
    | .ty (.priv t) => exact sub (fun ch => .priv) h
    | .ty .func => exact nil .func h
    | .ty .noType => exact nil .noType h

theorem frames_go {P : Prog} (hd : ∀ c, P.done c = true) {j : Job} {ch : Chain} (h : Frames P j ch) :
    ∃ N, ∀ fuel, N ≤ fuel → ∀ acc, go P fuel j acc = .ok (flatC ch ++ acc) := by
  have zero : ∀ {j : Job}, (∀ fuel acc, go P (fuel + 1) j acc = .ok acc) →
      ∃ N, ∀ fuel, N ≤ fuel → ∀ acc, go P fuel j acc = .ok (flatC [] ++ acc) := by
    intro j hf
    refine ⟨1, fun fuel hle acc => ?_⟩
    obtain ⟨f, rfl⟩ : ∃ f, fuel = f + 1 := ⟨fuel - 1, by omega⟩
    exact hf f acc
  have one : ∀ {j j' : Job} {ch : Chain}, (∃ N, ∀ fuel, N ≤ fuel → ∀ acc, go P fuel j' acc = .ok (flatC ch ++ acc)) →
      (∀ fuel acc, go P (fuel + 1) j acc = go P fuel j' acc) →
      ∃ N, ∀ fuel, N ≤ fuel → ∀ acc, go P fuel j acc = .ok (flatC ch ++ acc) := by
    rintro j j' ch ⟨N, hN⟩ hf
    refine ⟨N + 1, fun fuel hle acc => ?_⟩
    obtain ⟨f, rfl⟩ : ∃ f, fuel = f + 1 := ⟨fuel - 1, by omega⟩
    rw [hf]; exact hN f (by omega) acc
  induction h with
  | @inst c C a b hC _ _ ih1 ih2 =>
    obtain ⟨N1, h1⟩ := ih1
    obtain ⟨N2, h2⟩ := ih2
    refine ⟨max N1 N2 + 1, fun fuel hle acc => ?_⟩
    obtain ⟨f, rfl⟩ : ∃ f, fuel = f + 1 := ⟨fuel - 1, by omega⟩
    simp only [go, hC, hd, if_true]
    rw [h1 f (by omega)]; simp only [Res.bind]
    rw [h2 f (by omega)]; simp only []
    rw [addPublic_eq, flatC_cons, flatC_append]; simp
  | formalsNil => exact zero fun _ _ => rfl
  | plain he _ ih => exact one ih fun f acc => by simp [go, he]
  | @extended f fs a b he hp _ _ ih1 ih2 =>
    obtain ⟨N1, h1⟩ := ih1
    obtain ⟨N2, h2⟩ := ih2
    refine ⟨max N1 N2 + 1, fun fuel hle acc => ?_⟩
    obtain ⟨f', rfl⟩ : ∃ f', fuel = f' + 1 := ⟨fuel - 1, by omega⟩
    simp only [go, he, if_true, hp]
    rw [if_neg (by simp), h1 f' (by omega)]; simp only [Res.bind]
    rw [h2 f' (by omega), flatC_append]; simp
  | extends_ _ ih => exact one ih fun _ _ => rfl
  | @resultOther b t hb =>
    refine zero fun f acc => ?_
    cases b
    · cases t <;> rfl
    · cases t
      case inst m => exact absurd rfl (hb rfl m)
      all_goals rfl
  | sigDecl h _ ih => exact one ih fun f acc => by simp only [go, h]
  | sigRenaming h _ ih => exact one ih fun f acc => by simp only [go, h]
  | sigOther h => exact zero fun f acc => by simp only [go, h]
  | sigInst _ ih => exact one ih fun _ _ => rfl
  | @mult s t a b _ _ ih1 ih2 =>
    obtain ⟨N1, h1⟩ := ih1
    obtain ⟨N2, h2⟩ := ih2
    refine ⟨max N1 N2 + 1, fun fuel hle acc => ?_⟩
    obtain ⟨f', rfl⟩ : ∃ f', fuel = f' + 1 := ⟨fuel - 1, by omega⟩
    simp only [go]
    rw [h1 f' (by omega)]; simp only [Res.bind]
    rw [h2 f' (by omega), flatC_append]; simp
  | fixed => exact zero fun _ _ => rfl
  | noSig => exact zero fun _ _ => rfl
  | unbound => exact zero fun _ _ => rfl
  | typePlain h _ ih => exact one ih fun f acc => by simp only [go, h]
  | typeUnbound h => exact zero fun f acc => by simp only [go, h]
  | typeInst h _ ih => exact one ih fun f acc => by simp only [go, h]
  | @typeOther d t a h h1 h2 _ ih =>
    refine one ih fun f acc => ?_
    simp only [go, h]
    cases t
    case noType => exact absurd rfl h1
    case inst => exact absurd rfl (h2 _)
    all_goals rfl
  | phylumPlain h _ ih => exact one ih fun f acc => by simp only [go, h]
  | phylumInst h _ ih => exact one ih fun f acc => by simp only [go, h]
  | @phylumOther d t a h h1 h2 _ ih =>
    refine one ih fun f acc => ?_
    simp only [go, h]
  | typeRenaming h _ ih => exact one ih fun f acc => by simp only [go, h]
  | formal h _ ih => exact one ih fun f acc => by simp only [go, h]
  | other h => exact zero fun f acc => by simp only [go, h]
  | tyInst => exact zero fun _ _ => rfl
  | remote _ ih => exact one ih fun _ _ => rfl
  | priv _ ih => exact one ih fun _ _ => rfl
  | func => exact zero fun _ _ => rfl
  | noType => exact zero fun _ _ => rfl

theorem frames_unique {P : Prog} (hd : ∀ c, P.done c = true) {j : Job} {a b : Chain} (ha : Frames P j a)
    (hb : Frames P j b) : flatC a = flatC b := by
  obtain ⟨N, h1⟩ := frames_go hd ha
  obtain ⟨M, h2⟩ := frames_go hd hb
  have e1 := h1 (max N M) (by omega) []
  have e2 := h2 (max N M) (by omega) []
  rw [e1] at e2
  simpa using e2

theorem resolves_flat (ch : Chain) (nm ns d : Nat) :
    Bind.Resolves [(flatC ch).reverse] nm ns d ↔ Bind.Resolves ch nm ns d := by
  rw [Bind.res_iff, Bind.res_iff]
  unfold Bind.res
  simp [flatC]

end Aps.Qual
