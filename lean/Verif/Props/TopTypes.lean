import Verif.Proofs.TopTypes
/-! # C107: the objects of top-level types in C++ -/
namespace Aps.Props
open Aps Aps.TopTypes

/-- **C107.** When the program has started, in whatever order the declarations were initialized, each variable of a type points to an
object that is what the declaration says, whose actuals are the objects of the types that are named, and each declaration has made
one object. -/
theorem C107_objects (defs : Nat → Option Def) (fuel : Nat) (ks : List Nat) (s : St) (nd : ks.Nodup)
    (all : ∀ k d, defs k = some d → k ∈ ks) (h : initAll defs fuel empty ks = .ok s) : Good defs s.heap s.glob := by
  obtain ⟨done, hd, i⟩ := initAll_spec ks [] empty s (ginv_empty defs) nd (fun _ _ h => (by cases h)) h
  refine good_of_ginv i (fun k d e => hd k (.inl (all k d e))) fun k j e => ?_
  exact initAll_norenames ks empty s h k (all k _ e) j e

/-- **C107.** From then on, `get_T()` does nothing but return this object. -/
theorem C107_get (defs : Nat → Option Def) (fuel fuel' : Nat) (ks busy : List Nat) (s s' : St) (nd : ks.Nodup)
    (all : ∀ k d, defs k = some d → k ∈ ks) (h : initAll defs fuel empty ks = .ok s) (k a : Nat) (d : Def) (hd : defs k = some d)
    (hg : get defs fuel' busy s k = .ok (s', a)) : s' = s ∧ s.glob k = some a := by
  obtain ⟨done, hdone, i⟩ := initAll_spec ks [] empty s (ginv_empty defs) nd (fun _ _ h => (by cases h)) h
  exact get_done i fuel' busy (hdone k (.inl (all k d hd))) hd hg

/-- **C107.** The program starts, in any order of the declarations, if declarations refer only to types that are defined by
instances or other types, and none needs itself. -/
theorem C107_starts_partial (defs : Nat → Option Def) (rank : Nat → Nat) (hr : Ranked defs rank) (fuel : Nat) (ks : List Nat)
    (hk : ∀ k ∈ ks, rank k < fuel ∧ ∃ d, defs k = some d) : ∃ s, initAll defs fuel empty ks = .ok s :=
  initAll_ok hr fuel ks empty hk

/-- **C107.** The order of the declarations makes no difference: the same types share their objects, and the objects of a type are of the
same class. -/
theorem C107_order (defs : Nat → Option Def) (rank : Nat → Nat) (hr : Ranked defs rank) (fuel fuel' : Nat) (ks ks' : List Nat)
    (s s' : St) (nd : ks.Nodup) (nd' : ks'.Nodup) (all : ∀ k d, defs k = some d → k ∈ ks) (all' : ∀ k d, defs k = some d → k ∈ ks')
    (h : initAll defs fuel empty ks = .ok s) (h' : initAll defs fuel' empty ks' = .ok s') (k k' : Nat) (d d' : Def)
    (hd : defs k = some d) (hd' : defs k' = some d') :
    (s.glob k = s.glob k' ↔ s'.glob k = s'.glob k') ∧
    ∃ a a' o o', s.glob k = some a ∧ s'.glob k = some a' ∧ s.heap[a]? = some o ∧ s'.heap[a']? = some o' ∧ o.cls = o'.cls := by
  have g := C107_objects defs fuel ks s nd all h
  have g' := C107_objects defs fuel' ks' s' nd' all' h'
  obtain ⟨r, hr1⟩ := root_exists hr _ k d (Nat.lt_succ_self _) hd
  obtain ⟨r', hr2⟩ := root_exists hr _ k' d' (Nat.lt_succ_self _) hd'
  refine ⟨(same_iff g hr1 hr2).trans (same_iff g' hr1 hr2).symm, ?_⟩
  obtain ⟨e, dr, hdr, m⟩ := root_addr g hr1
  obtain ⟨e', _⟩ := root_addr g' hr1
  obtain ⟨a, ha, ho⟩ := g.1 r dr hdr
  obtain ⟨a', ha', ho'⟩ := g'.1 r dr hdr
  rw [ha] at e; rw [ha'] at e'
  cases dr with
  | noType => exact ⟨a, a', _, _, e, e', ho, ho', rfl⟩
  | inst m args =>
    obtain ⟨as, ho, _⟩ := ho
    obtain ⟨as', ho', _⟩ := ho'
    exact ⟨a, a', _, _, e, e', ho, ho', rfl⟩
  | same j => exact m.elim
  | renames j => exact m.elim

/-- `type T0 := SET[T1]; type T1 := INTEGER[]; type T2 := T0; type T3; type T4 := PAIR[T2,T1]`. -/
def tytDefs : Nat → Option Def
  | 0 => some (.inst 7 [1])
  | 1 => some (.inst 8 [])
  | 2 => some (.same 0)
  | 3 => some .noType
  | 4 => some (.inst 9 [2, 1])
  | _ => none

theorem tyt_ranked : Ranked tytDefs fun k => match k with | 1 => 0 | 0 => 1 | 2 => 2 | 4 => 3 | _ => 0 := by
  intro k d hd
  match k, hd with
  | 0, hd => cases hd; exact ⟨fun _ e => (by cases e), by simp [refs, tytDefs]⟩
  | 1, hd => cases hd; exact ⟨fun _ e => (by cases e), by simp [refs]⟩
  | 2, hd => cases hd; exact ⟨fun _ e => (by cases e), by simp [refs, tytDefs]⟩
  | 3, hd => cases hd; exact ⟨fun _ e => (by cases e), by simp [refs]⟩
  | 4, hd => cases hd; exact ⟨fun _ e => (by cases e), by simp [refs, tytDefs]⟩

/-- The object of `SET` is made by the declaration of `T4`, that needs it first. -/
example : ∃ s, initAll tytDefs 5 empty [4, 3, 2, 1, 0] = .ok s ∧ s.heap = [⟨some 8, []⟩, ⟨some 7, [0]⟩, ⟨some 9, [1, 0]⟩, ⟨none, []⟩] ∧
    [0, 1, 2, 3, 4].map s.glob = [some 1, some 0, some 1, some 3, some 2] :=
  ⟨_, by with_unfolding_all rfl, rfl, rfl⟩

example : (∀ k d, tytDefs k = some d → k ∈ [4, 3, 2, 1, 0]) ∧ [4, 3, 2, 1, 0].Nodup :=
  ⟨fun k d h => (by match k, h with | 0, _ | 1, _ | 2, _ | 3, _ | 4, _ => simp), by decide⟩

/-! ### What goes wrong -/

/-- `type T0; type T1 := SET[T0]`. -/
def tytNone : Nat → Option Def
  | 0 => some .noType
  | 1 => some (.inst 7 [0])
  | _ => none

/-- **C107, refuted for types without a definition.** There are objects as they should be, but there is no function `get_T0`: the
C++ that is generated cannot be compiled, whatever the order. -/
theorem C107_notype_refuted : Good tytNone [⟨none, []⟩, ⟨some 7, [0]⟩] (fun k => if k = 0 then some 0 else if k = 1 then some 1 else none) ∧
    initAll tytNone 5 empty [0, 1] = .stop ∧ initAll tytNone 5 empty [1, 0] = .stop := by
  refine ⟨⟨fun k d h => ?_, fun k k' d d' a h h' _ _ g g' => ?_⟩, by with_unfolding_all rfl, by with_unfolding_all rfl⟩
  · match k, h with
    | 0, h => cases h; exact ⟨0, rfl, rfl⟩
    | 1, h => cases h; exact ⟨1, rfl, [0], rfl, rfl⟩
  · match k, k', h, h' with
    | 0, 0, _, _ => rfl
    | 1, 1, _, _ => rfl
    | 0, 1, _, _ => cases g; cases g'
    | 1, 0, _, _ => cases g; cases g'

/-- **C107, refuted for renamings of types at top level.** `type T0 := INTEGER[]; type T1 = T0`, whatever the rest of the program. -/
theorem C107_renaming_refuted (defs : Nat → Option Def) (fuel : Nat) (ks : List Nat) (k j : Nat) (hk : k ∈ ks)
    (hd : defs k = some (.renames j)) (s : St) : initAll defs fuel empty ks ≠ .ok s :=
  fun h => initAll_norenames ks empty s h k hk j hd

/-- **C107, refuted for types that need themselves**, like `type T0 := SET[T0]`. -/
theorem C107_cycle_refuted : initAll (fun k => if k = 0 then some (.inst 7 [0]) else none) 5 empty [0] = .ub := by
  with_unfolding_all rfl

end Aps.Props
