import Verif.Proofs.FsaRange
set_option linter.unusedVariables false
/-!
# The fields of a fiber are listed; fuel
-/
namespace Aps.Fsa
open Aps.Points (Prog Expr Pat Use)
open Aps.Points.Spec Aps.Fsa.Spec
open Aps.Dfa (Lab Edge)

def LW (items : List Item) (w : List Lab) : Prop := ∀ l ∈ w, .decl l.field true ∈ items

theorem LW.cons {items : List Item} {l : Lab} {w : List Lab} (h : .decl l.field true ∈ items) (hw : LW items w) : LW items (l :: w) := by
  intro m hm
  rcases List.mem_cons.1 hm with rfl | hm
  · exact h
  · exact hw m hm

theorem LW.nil {items : List Item} : LW items [] := fun _ h => by cases h

mutual
theorem after_over {P : Prog} {fo : Nat → List Nat} {items : List Item} (L : Listed P fo items) :
    ∀ {r lt e w}, After P fo r lt e w → LW items w
  | _, _, _, _, .kept _ => .nil
  | _, _, _, _, .goes _ _ h => dem_over L h
  | _, _, _, _, .look _ he h => .cons (L.reads (.field he)).2 (after_over L h)
theorem given_over {P : Prog} {fo : Nat → List Nat} {items : List Item} (L : Listed P fo items) :
    ∀ {r lt e w}, Given P fo r lt e w → LW items w
  | _, _, _, _, .flat => .nil
  | _, _, _, _, .solid _ => .nil
  | _, _, _, _, .some _ _ => .nil
  | _, _, _, _, .obj _ _ h => has_over L h
theorem dem_over {P : Prog} {fo : Nat → List Nat} {items : List Item} (L : Listed P fo items) :
    ∀ {y w}, Dem P fo y w → LW items w
  | _, _, .read hr h => .cons (L.reads hr).2 (after_over L h)
  | _, _, .write hr h => .cons (L.writes hr).2 (given_over L h)
theorem has_over {P : Prog} {fo : Nat → List Nat} {items : List Item} (L : Listed P fo items) :
    ∀ {o w}, Has P fo o w → LW items w
  | _, _, .field h hf => .cons (L.fields h hf) .nil
  | _, _, .write _ hr h => .cons (L.writes hr).2 (given_over L h)
  | _, _, .read _ hr h => .cons (L.reads hr).2 (after_over L h)
  | _, _, .global h hs => .cons (L.shared h hs) .nil
  | _, _, .globalObj h hs _ _ hh => .cons (L.shared h hs) (has_over L hh)
end

theorem loop_mono {P : Prog} : ∀ (n : Nat) {k : Nat} {st st' : Points.St}, Points.loop P n st = .ok st' →
    Points.loop P (n + k) st = .ok st'
  | 0, k, st, st', h => by cases h
  | n + 1, k, st, st', h => by
    rw [Nat.succ_add]
    simp only [Points.loop] at h ⊢
    obtain ⟨s, hs, h⟩ := Res.bind_eq_ok.1 h
    rw [hs, Res.ok_bind]
    split at h
    · rename_i hd; rw [if_pos hd]; exact h
    · rename_i hd; rw [if_neg hd]; exact loop_mono n h

/-- a run of `fiberModule` -/
theorem setup_of {P : Prog} {fo : Nat → List Nat} {items : List Item} {fuel max : Nat} {st : Points.St} {N : Num} {E : List Edge}
    {D : Dfa.St} (h : fiberModule P fo items fuel max = .ok (st, N, E, D)) (hA : Alone P) (hT : PlainTargets P)
    (hL : Listed P fo items) : ∃ B, Setup ⟨P, st, N, fo⟩ items E B ∧ Points.Bd P B ∧ Dfa.fiberTree E (omegaOf N) N.fields max fuel = .ok D := by
  unfold fiberModule at h
  obtain ⟨st', h1, h⟩ := Res.bind_eq_ok.1 h
  obtain ⟨E', h2, h⟩ := Res.bind_eq_ok.1 h
  obtain ⟨D', h3, h⟩ := Res.bind_eq_ok.1 h
  cases h
  obtain ⟨hok, hd, hp⟩ := Points.loop_fix (Points.bd P) fuel (Points.start P) st (Points.start_ok P) h1
  unfold buildFsa at h2
  obtain ⟨es, h4, h2⟩ := Res.bind_eq_ok.1 h2
  cases h2
  exact ⟨_, ⟨hd, hp, hok, hA, rfl, ⟨es, h4, fun x h => List.mem_append_right _ h⟩,
    fun x h => List.mem_append_left _ (List.mem_append_left _ h),
    fun x h => List.mem_append_left _ (List.mem_append_right _ h), hT, hL⟩, Points.bd P, h3⟩

end Aps.Fsa
