import Verif.Proofs.Objects
/-! # C109: top-level values in Scala -/
namespace Aps.Props
open Aps Aps.Objects

/-- **C109.** If files do not need each other, and values use only what comes before them in their file, then whatever objects are
used first, all values of each file that was used are those of their expressions. -/
theorem C109_values_partial {V : Type} (p : Prog V) (null : V) (rank : Nat → Nat) (hp : Ordered p rank) (fuel : Nat) (fs : List Nat)
    (s : St V) (h : touchAll p null fuel empty fs = .ok s) (f : Nat) (hf : f ∈ fs) : Solved p s.env f := by
  obtain ⟨i, _, m⟩ := touchAll_spec hp fuel fs empty s (fun r => inv_empty r) h
  exact (i (rank f + 1)).solved f (m f hf) (Nat.lt_succ_self _)

/-- **C109.** So every value that is read afterwards, of any file, is that of its expression. -/
theorem C109_reads_partial {V : Type} (p : Prog V) (null : V) (rank : Nat → Nat) (hp : Ordered p rank) (fuel fuel' : Nat)
    (fs : List Nat) (s s' : St V) (h : touchAll p null fuel empty fs = .ok s) (f x : Nat) (hx : x ∈ (p.files f).map (·.1)) (v : V)
    (hr : eval p null fuel' s (.use f x) = .ok (s', v)) : s'.env f x = some v ∧ Solved p s'.env f := by
  obtain ⟨i, _, _⟩ := touchAll_spec hp fuel fs empty s (fun r => inv_empty r) h
  cases fuel' with
  | zero => cases hr
  | succ n =>
    rw [eval] at hr
    obtain ⟨s1, h1, hr⟩ := Res.bind_eq_ok.1 hr
    cases hr
    obtain ⟨po, hf⟩ := touch_spec hp (eval_spec hp n) (Nat.lt_succ_self (rank f)) (i _) h1
    have so := po.inv.solved f hf (Nat.lt_succ_self _)
    obtain ⟨m, hm, rfl⟩ := List.mem_map.1 hx
    obtain ⟨w, hw, _⟩ := so m hm
    exact ⟨by rw [hw]; rfl, so⟩

/-- **C109.** If, besides, calls of functions come to an end, then so does the initialization of objects. -/
theorem C109_ends_partial {V : Type} (p : Prog V) (null : V) (rank : Nat → Nat) (hp : Ordered p rank)
    (hf : ∀ f, ∀ m ∈ p.files f, Finite p m.2) (fs : List Nat) :
    ∃ n, ∀ fuel, n ≤ fuel → ∃ s, touchAll p null fuel empty fs = .ok s := by
  obtain ⟨n, h⟩ := touchAll_ends (null := null) hp hf fs
  exact ⟨n, fun fuel hn => h fuel hn empty⟩

/-- File 0 has `x0 = f0 + f0; x1 = x0`, where `f0` of file 1 is `x0` of file 1; file 1 has `x0 = 3`. -/
def objProg : Prog Int where
  files := fun
    | 0 => [(0, .op (fun x y => x + y) (.call 1 0) (.call 1 0)), (1, .use 0 0)]
    | 1 => [(0, .lit 3)]
    | _ => []
  fns := fun _ _ => .use 1 0

theorem obj_ordered : Ordered objProg fun f => if f = 0 then 1 else 0 := by
  have k : Safe objProg (fun f => if f = 0 then 1 else 0) 0 [] (.call 1 0) := by
    refine ⟨fun f x u => ?_, fun f c => ?_⟩
    · cases u with
      | call u => cases u; exact .inr ⟨by decide, by simp [objProg]⟩
    · cases c with
      | here => exact .inr (by decide)
      | call c => cases c
  intro f
  match f with
  | 0 =>
    refine ⟨⟨⟨fun f x u => ?_, fun f c => ?_⟩, ⟨fun f x u => ?_, fun f c => (by cases c)⟩, trivial⟩, by decide⟩
    · cases u with
      | left u => exact k.1 _ _ u
      | right u => exact k.1 _ _ u
    · cases c with
      | left c => exact k.2 _ c
      | right c => exact k.2 _ c
    · cases u; exact .inl ⟨rfl, .head _⟩
  | 1 => exact ⟨⟨⟨fun f x u => (by cases u), fun f c => (by cases c)⟩, trivial⟩, by decide⟩
  | _ + 2 => exact ⟨trivial, .nil⟩

example : ∀ f, ∀ m ∈ objProg.files f, Finite objProg m.2 := by
  intro f m hm
  match f with
  | 0 =>
    simp only [objProg, List.mem_cons, List.not_mem_nil, or_false] at hm
    rcases hm with rfl | rfl
    · exact .op (.call (.use 1 0)) (.call (.use 1 0))
    · exact .use 0 0
  | 1 =>
    simp only [objProg, List.mem_cons, List.not_mem_nil, or_false] at hm
    subst hm; exact .lit 3
  | _ + 2 => cases hm

example : ∃ s, touchAll objProg 0 5 empty [0, 1] = .ok s ∧ s.env 0 1 = some 6 ∧ s.started = [1, 0] :=
  ⟨_, by with_unfolding_all rfl, rfl, rfl⟩

example : ∃ s, touchAll objProg 0 5 empty [1, 0] = .ok s ∧ s.env 0 1 = some 6 ∧ s.started = [0, 1] :=
  ⟨_, by with_unfolding_all rfl, rfl, rfl⟩

/-! ### What goes wrong -/

/-- File 0 has `x0 = 3; x1 = ` `x0` of file 1 `; x2 = 4`, and file 1 has `x0 = x2 + x2` of file 0. -/
def objCycle : Prog Int where
  files := fun
    | 0 => [(0, .lit 3), (1, .use 1 0), (2, .lit 4)]
    | 1 => [(0, .op (fun x y => x + y) (.use 0 2) (.use 0 2))]
    | _ => []
  fns := fun _ _ => .lit 0

/-- **C109, refuted for files that need each other.** No value needs itself; if file 0 is used first then `x0` of file 1 is 0 for
ever, if file 1 is used first it is 8. -/
theorem C109_files_refuted :
    (∃ s, touchAll objCycle 0 6 empty [0, 1] = .ok s ∧ s.env 1 0 = some 0 ∧ s.env 0 2 = some 4) ∧
    ∃ s, touchAll objCycle 0 6 empty [1, 0] = .ok s ∧ s.env 1 0 = some 8 ∧ s.env 0 1 = some 0 :=
  ⟨⟨_, by with_unfolding_all rfl, rfl, rfl⟩, ⟨_, by with_unfolding_all rfl, rfl, rfl⟩⟩

/-- **C109, refuted for values that come later in the file.** `x0 = x1 + x1; x1 = 2`: `x0` is 0. -/
theorem C109_later_refuted :
    ∃ s, touchAll (⟨fun _ => [(0, .op (fun x y => x + y) (.use 0 1) (.use 0 1)), (1, .lit 2)], fun _ _ => .lit 0⟩ : Prog Int) 0 5 empty [0] =
      .ok s ∧ s.env 0 0 = some 0 ∧ s.env 0 1 = some 2 :=
  ⟨_, by with_unfolding_all rfl, rfl, rfl⟩

end Aps.Props
