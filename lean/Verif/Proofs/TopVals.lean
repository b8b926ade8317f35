import Verif.Spec.TopVals
import Verif.Proofs.Consts
/-! # Lemmas: top-level values -/
namespace Aps.TopVals
open Aps.Consts

variable {V : Type} {fns : Nat → Exp V}

theorem InOrder.mono : ∀ {ms : List (Member V)} {P Q : Nat → Prop}, (∀ n, P n → Q n) → InOrder fns P ms → InOrder fns Q ms
  | [], _, _, _, _ => trivial
  | _ :: _, _, _, h, i => ⟨fun n u => h n (i.1 n u), InOrder.mono (fun n => Or.imp_left (h n)) i.2⟩

theorem InOrder.append : ∀ {ms ms' : List (Member V)} {P : Nat → Prop}, InOrder fns P ms →
    InOrder fns (fun n => P n ∨ ∃ m ∈ ms, m.name = n) ms' → InOrder fns P (ms ++ ms')
  | [], ms', P, _, i => i.mono fun n h => h.elim id fun ⟨_, h, _⟩ => (by cases h)
  | m :: ms, ms', P, h, i => ⟨h.1, InOrder.append h.2 (i.mono fun n h => by
      rcases h with h | ⟨x, hx, e⟩
      · exact .inl (.inl h)
      · rcases List.mem_cons.1 hx with rfl | hx
        · exact .inl (.inr e.symm)
        · exact .inr ⟨x, hx, e⟩)⟩

theorem InOrder.filter {p : Member V → Bool} : ∀ {ms : List (Member V)} {P : Nat → Prop}, InOrder fns P ms →
    (∀ m ∈ ms, p m = false → P m.name) → InOrder fns P (ms.filter p)
  | [], _, _, _ => trivial
  | m :: ms, P, i, h => by
    by_cases e : p m
    · rw [List.filter_cons_of_pos e]
      exact ⟨i.1, InOrder.filter i.2 fun x hx hp => .inl (h x (.tail _ hx) hp)⟩
    · rw [List.filter_cons_of_neg e]
      refine InOrder.filter (i.2.mono fun n hn => hn.elim id ?_) fun x hx hp => h x (.tail _ hx) hp
      rintro rfl; exact h m (.head _) (by simpa using e)

theorem InOrder.flatten : ∀ {fs : List (List (Member V))} {P : Nat → Prop}, (∀ f ∈ fs, InOrder fns P f) → InOrder fns P fs.flatten
  | [], _, _ => trivial
  | f :: fs, P, h => by
    rw [List.flatten_cons]
    exact (h f (.head _)).append (InOrder.flatten fun g hg => (h g (.tail _ hg)).mono fun n hn => .inl hn)

theorem inOrder_lits {P : Nat → Prop} : ∀ {ms : List (Member V)}, InOrder fns P (ms.filter (isLit ·))
  | [] => trivial
  | m :: ms => by
    by_cases e : isLit m
    · rw [List.filter_cons_of_pos e]
      refine ⟨fun n u => ?_, inOrder_lits⟩
      rw [isLit] at e
      split at e
      · rename_i v h; rw [h] at u; cases u
      · cases e
    · rw [List.filter_cons_of_neg e]; exact inOrder_lits

theorem lit_of {m : Member V} (h : isLit m = true) : ∃ v, m.init = .lit v := by
  rw [isLit] at h
  split at h
  · rename_i v h'; exact ⟨v, h'⟩
  · cases h

theorem isLit_of {m : Member V} {v : V} (h : m.init = .lit v) : isLit m = true := by rw [isLit, h]

theorem inOrder_order {native : Env V} {files : List (List (Member V))} (h : ∀ f ∈ files, InOrder fns (Known native files) f) :
    InOrder fns (fun n => ∃ v, native n = some v) (order files) := by
  refine inOrder_lits.append ?_
  refine InOrder.flatten fun g hg => ?_
  obtain ⟨f, hf, rfl⟩ := List.mem_map.1 hg
  refine InOrder.filter ((h f hf).mono fun n hn => ?_) fun m hm e => ?_
  · rcases hn with hn | ⟨f', hf', m, hm, e, v, hv⟩
    · exact .inl hn
    · exact .inr ⟨m, List.mem_filter.2 ⟨List.mem_flatten.2 ⟨f', hf', hm⟩, isLit_of hv⟩, e⟩
  · exact .inr ⟨m, List.mem_filter.2 ⟨List.mem_flatten.2 ⟨f, hf, hm⟩, by simpa using e⟩, rfl⟩

theorem before_of : ∀ {ms : List (Member V)} {P : Nat → Prop}, InOrder fns P ms → ∀ (l r : List (Member V)) m, ms = l ++ m :: r →
    ∀ n, Uses fns m.init n → P n ∨ ∃ m' ∈ l, m'.name = n
  | _, P, i, [], r, m, e, n, u => by cases e; exact .inl (i.1 n u)
  | _, P, i, x :: l, r, m, e, n, u => by
    cases e
    rcases before_of i.2 l r m rfl n u with (h | h) | ⟨y, hy, h⟩
    · exact .inl h
    · exact .inr ⟨x, .head _, h.symm⟩
    · exact .inr ⟨y, .tail _ hy, h⟩

theorem perm_order : ∀ (files : List (List (Member V))), (order files).Perm files.flatten
  | files => by
    have h : (files.map fun f => f.filter (! isLit ·)).flatten = files.flatten.filter (! isLit ·) := by
      rw [List.filter_flatten]
    rw [order, h]
    exact List.filter_append_perm (fun m : Member V => isLit m) files.flatten

end Aps.TopVals
