import Verif.Proofs.Qual
import Verif.Props.Bind
/-!
# C92: what a qualified name means

`services P fuel t`: the scope in which the name after `t$` is looked up, the latest declaration first.
-/
namespace Aps.Props
open Aps.Qual
open Aps.Bind (Info Chain Resolves flatC)

/-! An example after `base/basic.aps` and `examples/tiny.aps`. -/

def qualFn (id nm : Nat) : Info := ⟨id, some nm, .functionDecl, true⟩

/-- Classes 0-8: NULL, BASIC, COMPARABLE, ORDERED, TYPE, NULL_TYPE, TINY, `SYN[T :: TINY[]] extends T`,
`PSYN[phylum T :: TINY[]] phylum extends T`.  Names: 1 equal, 2 less, 3 string, 4 leaf, 5 sum. -/
def qualClasses : List Qual.Class := [
  ⟨[], .none, true, .noType, []⟩,
  ⟨[], .inst (some 0), true, .noType, [qualFn 101 1]⟩,
  ⟨[], .inst (some 1), true, .noType, [qualFn 201 2]⟩,
  ⟨[], .inst (some 2), true, .noType, []⟩,
  ⟨[], .inst (some 1), true, .inst (some 5), [qualFn 401 1, qualFn 402 3]⟩,
  ⟨[], .inst (some 0), true, .noType, []⟩,
  ⟨[], .none, true, .noType, [⟨601, some 4, .constructorDecl, true⟩, qualFn 602 3]⟩,
  ⟨[⟨false, true, .inst (some 6)⟩], .none, true, .use (some 9), [⟨701, some 5, .attributeDecl, true⟩, qualFn 702 3]⟩,
  ⟨[⟨true, true, .inst (some 6)⟩], .none, false, .use (some 9), []⟩]

/-- Type declarations: 0 `T :: ORDERED[]`, 1 `T := TINY[]`, 2 `S := SYN[T]`, 3 a plain type, 4 `PSYN[…]`. -/
def qualProg : Qual.Prog where
  cls := fun c => qualClasses[c]?
  done := fun _ => true
  sig := fun _ => .other
  tdef := fun u => ([.formal (.inst (some 3)), .typeDecl (.inst (some 6)), .typeDecl (.inst (some 7)), .typeDecl .noType,
    .phylumDecl (.inst (some 8))] : List Qual.TDef)[u]?.getD .other
  moduleTYPE := some 4
  modulePHYLUM := none

/-- **C92.** The services of a type are found exactly if its frames exist, and then they are the declarations of its
frames: the computation ends with `L` if and only if `L` is that list. -/
theorem C92_services {P : Qual.Prog} (hd : ∀ c, P.done c = true) (t : Qual.Ty) (L : List Info) :
    (∃ N, ∀ fuel, N ≤ fuel → services P fuel t = .ok L) ↔ ∃ ch, Frames P (.ty t) ch ∧ L = ch.flatMap List.reverse := by
  constructor
  · rintro ⟨N, h⟩
    obtain ⟨ch, h1, h2⟩ := go_frames hd _ _ _ _ (h N (Nat.le_refl _))
    exact ⟨ch, h1, by simpa [flatC] using h2⟩
  · rintro ⟨ch, h1, rfl⟩
    obtain ⟨N, h⟩ := frames_go hd h1
    exact ⟨N, fun fuel hle => by simpa [flatC, services] using h fuel hle []⟩

/-- The frames of the extending module of the example: its own declarations, then those of `TINY`. -/
theorem qual_syn : Frames qualProg (.ty (.use (some 2)))
    [[⟨701, some 5, .attributeDecl, true⟩, qualFn 702 3], [⟨601, some 4, .constructorDecl, true⟩, qualFn 602 3]] :=
  .typeInst (m := 7) rfl (.inst (C := qualClasses[7]) (b := []) rfl
    (.extended (b := []) rfl rfl (.sigInst (.inst (C := qualClasses[6]) (a := []) (b := []) rfl .formalsNil
      (.resultOther (fun _ _ h => by cases h)))) .formalsNil)
    (.resultOther (fun _ _ h => by cases h)))

example : ∃ L, (∃ N, ∀ fuel, N ≤ fuel → services qualProg fuel (.use (some 2)) = .ok L) ∧ L.map (·.id) = [702, 701, 602, 601] :=
  ⟨_, (C92_services (fun _ => rfl) _ _).2 ⟨_, qual_syn, rfl⟩, by decide +kernel⟩

/-- **C92.** With these services a qualified name `T$x` is bound by the binder (C58) to what `x` stands for in the frames
of `T`: the last declaration of the first frame that declares it. -/
theorem C92_qualified {P : Qual.Prog} (hd : ∀ c, P.done c = true) (C : Bind.Services) (basic : List Bind.Node)
    (us : List Bind.Unit) (hp : Parsed us) (hn : HasNames basic us) (x : Bind.UseAt)
    (hx : x ∈ Bind.unitUses C true us (top basic us)) {fnm t : Nat} (hq : x.qualifier = some fnm)
    (ht : Resolves x.chain fnm Bind.nameType t)
    {fuel : Nat} {L : List Info} (hL : services P fuel (.use (some t)) = .ok L) (hC : C.svc t = L.reverse)
    {ch : Chain} (hf : Frames P (.ty (.use (some t))) ch) {d : Nat} (hr : Resolves ch x.nm x.ns d) :
    (Bind.bindProgram C basic us).decl x.u = some d := by
  refine C58_bound C basic us hp hn x hx d ?_
  simp only [Bind.UseAt.Means, hq]
  refine ⟨t, ht, ?_⟩
  obtain ⟨ch', h1, h2⟩ := go_frames hd _ _ _ _ hL
  rw [hC, h2, List.append_nil, frames_unique hd h1 hf]
  exact (resolves_flat ch x.nm x.ns d).2 hr

example : Resolves [[⟨701, some 5, .attributeDecl, true⟩, qualFn 702 3], [⟨601, some 4, .constructorDecl, true⟩, qualFn 602 3]]
    3 Bind.nameValue 702 ∧
    Resolves [[⟨701, some 5, .attributeDecl, true⟩, qualFn 702 3], [⟨601, some 4, .constructorDecl, true⟩, qualFn 602 3]]
    4 Bind.nameValue 601 := by
  rw [Bind.res_iff, Bind.res_iff]; decide +kernel

/-- A program for the case of C58: the type `101` is an instance of a module that declares the service `200`. -/
def qualC58 : Qual.Prog := { qualProg with
  cls := fun _ => some ⟨[], .none, true, .noType, [⟨200, some 20, .valueDecl, true⟩]⟩
  tdef := fun _ => .typeDecl (.inst (some 0)) }

example : (Bind.bindProgram c58svc c58prelude c58prog).decl 4 = some 200 := by
  refine C92_qualified (P := qualC58) (t := 101) (fnm := 11) (fuel := 5) (fun _ => rfl) c58svc c58prelude c58prog c58_parsed c58_names
    ⟨4, Bind.nameValue, 20, some 11, [[⟨105, some 33, .valueDecl, true⟩, ⟨106, some 34, .valueDecl, true⟩], [⟨104, some 32, .formal, true⟩],
    [⟨103, some 31, .formal, true⟩], Bind.unitFrame c58prog, Bind.pubsL c58prelude]⟩ ?_ rfl ?_ (by with_unfolding_all rfl) rfl
    (.typeInst rfl (.inst (a := []) (b := []) rfl .formalsNil (.resultOther (fun _ _ h => by cases h)))) ?_
  · simp [c58prog, Bind.unitUses, Bind.uses, Bind.usesL, Bind.decls, Bind.declsL, fml, val, typ, top]
  · rw [Bind.res_iff]; decide +kernel
  · rw [Bind.res_iff]; decide +kernel

/-- **C92.** What the module `M` of `T := M[...]` declares itself is what `T$x` means, whatever it extends. -/
theorem C92_own {P : Qual.Prog} (hd : ∀ c, P.done c = true) {u m fuel : Nat} {M : Qual.Class} {L : List Info}
    (hu : P.tdef u = .typeDecl (.inst (some m))) (hm : P.cls m = some M)
    (hL : services P fuel (.use (some u)) = .ok L) {nm ns d : Nat} (hr : Resolves [M.contents] nm ns d) :
    Resolves [L.reverse] nm ns d := by
  obtain ⟨ch, h1, h2⟩ := go_frames hd _ _ _ _ hL
  rw [h2, List.append_nil]
  refine (resolves_flat ch nm ns d).2 ?_
  have inv : ∀ a, Frames P (.inst (some m)) a → ∃ b, a = M.contents :: b := by
    intro a h
    cases h with
    | inst e _ _ => rw [hm] at e; cases e; exact ⟨_, rfl⟩
  have : ∃ b, ch = M.contents :: b := by
    cases h1 with
    | typeInst e h => rw [hu] at e; cases e; exact inv _ h
    | typePlain e _ => rw [hu] at e; cases e
    | typeUnbound e => rw [hu] at e; cases e
    | typeOther e _ h _ => rw [hu] at e; cases e; exact absurd rfl (h _)
    | phylumPlain e _ => rw [hu] at e; cases e
    | phylumInst e _ => rw [hu] at e; cases e
    | phylumOther e _ _ _ => rw [hu] at e; cases e
    | typeRenaming e _ => rw [hu] at e; cases e
    | formal e _ => rw [hu] at e; cases e
    | other e => rw [hu] at e; cases e
  obtain ⟨b, rfl⟩ := this
  obtain ⟨inner, f, outer, e, h1, h2⟩ := hr
  cases inner with
  | nil =>
    simp only [List.nil_append, List.cons.injEq] at e
    exact ⟨[], f, b, by rw [e.1]; rfl, by simp, h2⟩
  | cons g gs => simp at e

/-! ## What does not hold -/

/-- **C92, refuted for parent classes.** A type parameter `T :: ORDERED[]`, with `class ORDERED[] :: COMPARABLE[]` as in
`base/basic.aps`, has no services at all: `T$less` is not bound, though `COMPARABLE` declares `less`. -/
theorem C92_parent_refuted : (∃ C, qualProg.cls 3 = some C ∧ C.parent = .inst (some 2)) ∧
    (∃ C, qualProg.cls 2 = some C ∧ qualFn 201 2 ∈ C.contents) ∧
    qualProg.tdef 0 = .formal (.inst (some 3)) ∧ services qualProg 10 (.use (some 0)) = .ok [] :=
  ⟨⟨_, rfl, rfl⟩, ⟨_, rfl, by decide +kernel⟩, rfl, by with_unfolding_all rfl⟩

/-- **C92, refuted for plain modules.** `T := TINY[]`, where `TINY` does not extend anything: `T$equal` is not bound,
though every plain type has `equal` (the type declaration 3 has). -/
theorem C92_plain_refuted : (∃ L, services qualProg 10 (.use (some 1)) = .ok L ∧
      ¬ ∃ d, Resolves [L.reverse] 1 Bind.nameValue d) ∧
    ∃ L, services qualProg 10 (.use (some 3)) = .ok L ∧ Resolves [L.reverse] 1 Bind.nameValue 401 := by
  refine ⟨⟨_, by with_unfolding_all rfl, ?_⟩, _, by with_unfolding_all rfl, ?_⟩
  · rintro ⟨d, h⟩
    rw [Bind.res_iff] at h
    revert h
    rw [show Bind.res _ 1 Bind.nameValue = none by decide +kernel]
    simp
  · rw [Bind.res_iff]; decide +kernel

/-- **C92, refuted for modules further down.** As long as the module `SYN` has not been bound, a type made with it has
only the services declared in its body: `S$leaf` is not bound above the module. -/
theorem C92_forward_refuted : ∃ L, services { qualProg with done := fun c => c != 7 } 10 (.use (some 2)) = .ok L ∧
    ¬ ∃ d, Resolves [L.reverse] 4 Bind.nameValue d := by
  refine ⟨_, by with_unfolding_all rfl, ?_⟩
  rintro ⟨d, h⟩
  rw [Bind.res_iff] at h
  revert h
  rw [show Bind.res _ 4 Bind.nameValue = none by decide +kernel]
  simp

/-- **C92, refuted for phyla that are extended.** A type made with a module that extends a phylum parameter stops the
compiler as soon as one of its services is named. -/
theorem C92_phylum_refuted : services qualProg 10 (.use (some 4)) = .stop := by with_unfolding_all rfl

end Aps.Props
