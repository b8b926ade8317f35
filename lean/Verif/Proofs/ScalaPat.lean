import Verif.Spec.ScalaPat
import Verif.Proofs.AstDump
import Verif.Proofs.DynGenPat
import Mathlib.Data.List.Nodup
/-!
# Proofs about Scala patterns
-/
namespace Aps.ScalaPat
open Aps.DynGen

variable {V : Type}

theorem decimal_inj {a b : Nat} (h : Ast.decimal a = Ast.decimal b) : a = b := by
  have h1 := Ast.readLine_mark a []
  rw [h, Ast.readLine_mark b []] at h1
  simpa using h1.symm

theorem numbered_inj {a b : Nat} (h : numbered a = numbered b) : a = b := decimal_inj (List.append_cancel_left h)

/-! ### The form -/

/-- What `dump_Pattern` does with a conjunction. -/
theorem dumpP_and (nm : Names) (p q : Pat V) (next : Bool) (k : Nat) : dumpP nm (.and p q) next k =
    match q with
    | .cond e => (dumpP nm p false k).map fun r => (.guard r.1 e, r.2)
    | .call c ps => (dumpP nm p false k).bind fun r => (actualsP nm ps 0).map fun r' => (.call c r.1 r'.1, r'.2)
    | .seq ps => (dumpP nm p false k).bind fun r => (actualsP nm ps 0).map fun r' => (.seq r.1 r'.1, r'.2)
    | q => (dumpP nm p false k).bind fun r => (dumpP nm q false r.2).map fun r' => (.pand r.1 r'.1, r'.2) := by
  cases q <;> simp [dumpP]

/-- Only `...` is printed as `_*`. -/
theorem dump_star {nm : Names} {p : Pat V} {next : Bool} {k k' : Nat} (e : dumpP nm p next k = some (.star, k')) :
    p = .rest := by
  cases p with
  | typed t p => cases p <;> simp [dumpP] at e
  | call c ps => simp [dumpP] at e
  | seq ps => simp [dumpP] at e
  | and p q =>
    rw [dumpP_and] at e
    cases q <;> simp only [Option.bind_eq_some_iff, Option.map_eq_some_iff, _root_.Prod.exists, _root_.Prod.mk.injEq] at e
    all_goals
      first
      | (obtain ⟨_, _, _, _, _, _, e, _⟩ := e; cases e)
      | (obtain ⟨_, _, _, e, _⟩ := e; cases e)
  | var x => simp [dumpP] at e
  | wild => simp [dumpP] at e
  | cond e => simp [dumpP] at e
  | rest => rfl

mutual
theorem plain_dump (ar : Nat → Nat) (nm : Names) : ∀ (p : Pat V) (next : Bool) (k : Nat), plain ar p →
    ∃ s k', dumpP nm p next k = some (s, k') ∧ inner ar s
  | .typed t p, next, k, h => by
    cases p with
    | var x => exact ⟨.typed (nm.bound x) t, k, by simp [dumpP], trivial⟩
    | wild => exact ⟨.typed (numbered k) t, k, by simp [dumpP], trivial⟩
    | _ => exact h.elim
  | .call c ps, next, k, h => by
    obtain ⟨as, k', e, hl, hi⟩ := plainAll_dump ar nm ps 0 h.2
    exact ⟨.call c .any as, k', by simp [dumpP, e], trivial, hl.trans h.1, hi⟩
  | .seq ps, next, k, h => by
    obtain ⟨as, k', e, hi⟩ := plainSeq_dump ar nm ps 0 h
    exact ⟨.seq .any as, k', by simp [dumpP, e], trivial, hi⟩
  | .and p q, next, k, h => by
    obtain ⟨s, k1, e, hs⟩ := plain_dump ar nm p false k h.1
    have hq := h.2
    rw [dumpP_and]
    cases q with
    | cond e => exact hq.elim
    | rest => exact hq.elim
    | call c ps =>
      obtain ⟨as, k', e', hl, hi⟩ := plainAll_dump ar nm ps 0 hq.2
      exact ⟨.call c s as, k', by simp [e, e'], hs, hl.trans hq.1, hi⟩
    | seq ps =>
      obtain ⟨as, k', e', hi⟩ := plainSeq_dump ar nm ps 0 hq
      exact ⟨.seq s as, k', by simp [e, e'], hs, hi⟩
    | typed t q =>
      obtain ⟨s', k', e', hs'⟩ := plain_dump ar nm (.typed t q) false k1 hq
      exact ⟨.pand s s', k', by simp [e, e'], hs, hs'⟩
    | and q1 q2 =>
      obtain ⟨s', k', e', hs'⟩ := plain_dump ar nm (.and q1 q2) false k1 hq
      exact ⟨.pand s s', k', by simp [e, e'], hs, hs'⟩
    | var x =>
      obtain ⟨s', k', e', hs'⟩ := plain_dump ar nm (.var x) false k1 hq
      exact ⟨.pand s s', k', by simp [e, e'], hs, hs'⟩
    | wild =>
      obtain ⟨s', k', e', hs'⟩ := plain_dump ar nm .wild false k1 hq
      exact ⟨.pand s s', k', by simp [e, e'], hs, hs'⟩
  | .var x, next, k, _ => ⟨.var (nm.bound x), k, by simp [dumpP], trivial⟩
  | .wild, next, k, _ => ⟨.var (numbered k), k, by simp [dumpP], trivial⟩
  | .cond _, _, _, h => h.elim
  | .rest, _, _, h => h.elim
theorem plainAll_dump (ar : Nat → Nat) (nm : Names) : ∀ (ps : List (Pat V)) (k : Nat), plainAll ar ps →
    ∃ as k', actualsP nm ps k = some (as, k') ∧ as.length = ps.length ∧ innerAll ar as
  | [], k, _ => ⟨[], k, by simp [actualsP], rfl, trivial⟩
  | p :: ps, k, h => by
    obtain ⟨s, k1, e, hs⟩ := plain_dump ar nm p (!ps.isEmpty) k h.1
    obtain ⟨as, k', e', hl, hi⟩ := plainAll_dump ar nm ps (k1 + 1) h.2
    exact ⟨s :: as, k', by simp [actualsP, e, e'], by simp [hl], hs, hi⟩
theorem plainSeq_dump (ar : Nat → Nat) (nm : Names) : ∀ (ps : List (Pat V)) (k : Nat), plainSeq ar ps →
    ∃ as k', actualsP nm ps k = some (as, k') ∧ innerSeq ar as
  | [], k, _ => ⟨[], k, by simp [actualsP], trivial⟩
  | p :: ps, k, h => by
    by_cases hr : p = .rest ∧ ps = []
    · obtain ⟨rfl, rfl⟩ := hr
      exact ⟨[.star], k + 1, by simp [actualsP, dumpP], trivial⟩
    · have h' : plain ar p ∧ plainSeq ar ps := by
        cases p <;> first | exact h | (cases ps with | nil => exact absurd ⟨rfl, rfl⟩ hr | cons => exact h)
      obtain ⟨s, k1, e, hs⟩ := plain_dump ar nm p (!ps.isEmpty) k h'.1
      obtain ⟨as, k', e', hi⟩ := plainSeq_dump ar nm ps (k1 + 1) h'.2
      refine ⟨s :: as, k', by simp [actualsP, e, e'], ?_⟩
      cases s <;> first | exact ⟨hs, hi⟩ | exact hs.elim
end

mutual
theorem dump_plain (ar : Nat → Nat) (nm : Names) : ∀ (p : Pat V) (next : Bool) (k : Nat) (s : SPat V) (k' : Nat),
    dumpP nm p next k = some (s, k') → inner ar s → plain ar p
  | .typed t p, next, k, s, k', h, hi => by
    cases p <;> simp [dumpP] at h <;> trivial
  | .call c ps, next, k, s, k', h, hi => by
    simp only [dumpP, Option.map_eq_some_iff, _root_.Prod.exists, _root_.Prod.mk.injEq] at h
    obtain ⟨as, k1, e, rfl, rfl⟩ := h
    obtain ⟨h1, h2⟩ := dump_plainAll ar nm ps _ _ _ e hi.2.2
    exact ⟨h1.symm.trans hi.2.1, h2⟩
  | .seq ps, next, k, s, k', h, hi => by
    simp only [dumpP, Option.map_eq_some_iff, _root_.Prod.exists, _root_.Prod.mk.injEq] at h
    obtain ⟨as, k1, e, rfl, rfl⟩ := h
    exact dump_plainSeq ar nm ps _ _ _ e hi.2
  | .and p q, next, k, s, k', h, hi => by
    rw [dumpP_and] at h
    cases q with
    | cond e =>
      simp only [Option.map_eq_some_iff, _root_.Prod.exists, _root_.Prod.mk.injEq] at h
      obtain ⟨as, k1, e, rfl, rfl⟩ := h
      exact hi.elim
    | rest =>
      simp only [Option.bind_eq_some_iff, Option.map_eq_some_iff, _root_.Prod.exists, _root_.Prod.mk.injEq] at h
      obtain ⟨s1, k1, e, s2, k2, e', rfl, rfl⟩ := h
      simp [dumpP] at e'
      rw [← e'.1] at hi
      exact hi.2.elim
    | call c ps =>
      simp only [Option.bind_eq_some_iff, Option.map_eq_some_iff, _root_.Prod.exists, _root_.Prod.mk.injEq] at h
      obtain ⟨s1, k1, e, as, k2, e', rfl, rfl⟩ := h
      obtain ⟨h1, h2⟩ := dump_plainAll ar nm ps _ _ _ e' hi.2.2
      exact ⟨dump_plain ar nm p _ _ _ _ e hi.1, h1.symm.trans hi.2.1, h2⟩
    | seq ps =>
      simp only [Option.bind_eq_some_iff, Option.map_eq_some_iff, _root_.Prod.exists, _root_.Prod.mk.injEq] at h
      obtain ⟨s1, k1, e, as, k2, e', rfl, rfl⟩ := h
      exact ⟨dump_plain ar nm p _ _ _ _ e hi.1, dump_plainSeq ar nm ps _ _ _ e' hi.2⟩
    | typed t q =>
      simp only [Option.bind_eq_some_iff, Option.map_eq_some_iff, _root_.Prod.exists, _root_.Prod.mk.injEq] at h
      obtain ⟨s1, k1, e, s2, k2, e', rfl, rfl⟩ := h
      exact ⟨dump_plain ar nm p _ _ _ _ e hi.1, dump_plain ar nm _ _ _ _ _ e' hi.2⟩
    | and q1 q2 =>
      simp only [Option.bind_eq_some_iff, Option.map_eq_some_iff, _root_.Prod.exists, _root_.Prod.mk.injEq] at h
      obtain ⟨s1, k1, e, s2, k2, e', rfl, rfl⟩ := h
      exact ⟨dump_plain ar nm p _ _ _ _ e hi.1, dump_plain ar nm _ _ _ _ _ e' hi.2⟩
    | var x =>
      simp only [Option.bind_eq_some_iff, Option.map_eq_some_iff, _root_.Prod.exists, _root_.Prod.mk.injEq] at h
      obtain ⟨s1, k1, e, s2, k2, e', rfl, rfl⟩ := h
      exact ⟨dump_plain ar nm p _ _ _ _ e hi.1, trivial⟩
    | wild =>
      simp only [Option.bind_eq_some_iff, Option.map_eq_some_iff, _root_.Prod.exists, _root_.Prod.mk.injEq] at h
      obtain ⟨s1, k1, e, s2, k2, e', rfl, rfl⟩ := h
      exact ⟨dump_plain ar nm p _ _ _ _ e hi.1, trivial⟩
  | .var x, next, k, s, k', h, hi => trivial
  | .wild, next, k, s, k', h, hi => trivial
  | .cond _, next, k, s, k', h, hi => by simp [dumpP] at h
  | .rest, next, k, s, k', h, hi => by
    simp only [dumpP] at h
    split at h
    · cases h
    · cases h; exact hi.elim
theorem dump_plainAll (ar : Nat → Nat) (nm : Names) : ∀ (ps : List (Pat V)) (k : Nat) (as : List (SPat V)) (k' : Nat),
    actualsP nm ps k = some (as, k') → innerAll ar as → as.length = ps.length ∧ plainAll ar ps
  | [], k, as, k', h, hi => by simp [actualsP] at h; simp [← h.1, plainAll]
  | p :: ps, k, as, k', h, hi => by
    simp only [actualsP, Option.bind_eq_some_iff, Option.map_eq_some_iff, _root_.Prod.exists, _root_.Prod.mk.injEq] at h
    obtain ⟨s1, k1, e, s2, k2, e', rfl, rfl⟩ := h
    obtain ⟨h1, h2⟩ := dump_plainAll ar nm ps _ _ _ e' hi.2
    exact ⟨by simp [h1], dump_plain ar nm p _ _ _ _ e hi.1, h2⟩
theorem dump_plainSeq (ar : Nat → Nat) (nm : Names) : ∀ (ps : List (Pat V)) (k : Nat) (as : List (SPat V)) (k' : Nat),
    actualsP nm ps k = some (as, k') → innerSeq ar as → plainSeq ar ps
  | [], k, as, k', h, hi => trivial
  | p :: ps, k, as, k', h, hi => by
    simp only [actualsP, Option.bind_eq_some_iff, Option.map_eq_some_iff, _root_.Prod.exists, _root_.Prod.mk.injEq] at h
    obtain ⟨s1, k1, e, s2, k2, e', rfl, rfl⟩ := h
    by_cases hr : p = .rest
    · subst hr
      cases ps with
      | nil => trivial
      | cons q qs => simp [dumpP] at e
    · have hs : inner ar s1 ∧ innerSeq ar s2 := by
        cases s1 with
        | star =>
          exact absurd (dump_star e) hr
        | _ => exact hi
      have h1 := dump_plain ar nm p _ _ _ _ e hs.1
      have h2 := dump_plainSeq ar nm ps _ _ _ e' hs.2
      cases p <;> first | exact ⟨h1, h2⟩ | exact absurd rfl hr
end

/-! ### The meaning -/

theorem scope_cons {nm : Names} {n : Name} {v : V} {b : List (Name × V)} {ρ : Env V} (y : Nat) :
    scope nm ((n, v) :: b) ρ y = if nm.used y = n then v else scope nm b ρ y := by
  unfold scope
  rw [List.find?_cons]
  by_cases h : nm.used y = n
  · simp [h]
  · have : (n == nm.used y) = false := by simpa using fun e => h e.symm
    simp [h, this]

theorem scope_numbered {nm : Names} (ha : ∀ y k, nm.used y ≠ numbered k) (k : Nat) (v : V) (b : List (Name × V))
    (ρ : Env V) : scope nm ((numbered k, v) :: b) ρ = scope nm b ρ := by
  funext y; rw [scope_cons, if_neg (ha y k)]

theorem scope_bound {nm : Names} {x : Nat} (ha : ∀ y, nm.used y = nm.bound x ↔ y = x) (v : V) (b : List (Name × V))
    (ρ : Env V) : scope nm ((nm.bound x, v) :: b) ρ = fun y => if y = x then v else scope nm b ρ y := by
  funext y; rw [scope_cons]; simp only [ha y]

section
variable {W : World V} {ar : Nat → Nat} {nm : Names} (ha : ∀ y k, nm.used y ≠ numbered k)

include ha in
mutual
theorem smatch_spec : ∀ (p : Pat V) (next : Bool) (k : Nat) (s : SPat V) (k' : Nat), dumpP nm p next k = some (s, k') →
    inner ar s → (∀ x ∈ patVars p, ∀ y, nm.used y = nm.bound x ↔ y = x) → ∀ (v : V) (b : List (Name × V)) (ρ : Env V),
    (smatch W s v b).map (fun b => scope nm b ρ) = pmatch W p v (scope nm b ρ)
  | .typed t p, next, k, s, k', h, hi, hx, v, b, ρ => by
    cases p <;> simp [dumpP] at h
    · obtain ⟨rfl, rfl⟩ := h
      simp only [smatch, pmatch]
      split
      · simp only [Option.map_some]
        rw [scope_bound (hx _ (by simp [patVars]))]
      · rfl
    · obtain ⟨rfl, rfl⟩ := h
      simp only [smatch, pmatch]
      split
      · simp only [Option.map_some]
        rw [scope_numbered ha]
      · rfl
  | .call c ps, next, k, s, k', h, hi, hx, v, b, ρ => by
    simp only [dumpP, Option.map_eq_some_iff, _root_.Prod.exists, _root_.Prod.mk.injEq] at h
    obtain ⟨as, k1, e, rfl, rfl⟩ := h
    simp only [smatch, pmatch, Option.bind_some]
    split
    · exact smatchAll_spec ps _ _ _ e hi.2.2 hx (W.fields v) b ρ
    · rfl
  | .seq ps, next, k, s, k', h, hi, hx, v, b, ρ => by
    simp only [dumpP, Option.map_eq_some_iff, _root_.Prod.exists, _root_.Prod.mk.injEq] at h
    obtain ⟨as, k1, e, rfl, rfl⟩ := h
    simp only [smatch, pmatch, Option.bind_some]
    exact smatchSeq_spec ps _ _ _ e hi.2 hx (W.elems v) b ρ
  | .and p q, next, k, s, k', h, hi, hx, v, b, ρ => by
    rw [dumpP_and] at h
    have hxp : ∀ x ∈ patVars p, ∀ y, nm.used y = nm.bound x ↔ y = x := fun x hm => hx x (by simp [patVars, hm])
    have hxq : ∀ x ∈ patVars q, ∀ y, nm.used y = nm.bound x ↔ y = x := fun x hm => hx x (by simp [patVars, hm])
    have glue : ∀ {s1 : SPat V} {f : List (Name × V) → Option (List (Name × V))},
        (∀ b, (smatch W s1 v b).map (fun b => scope nm b ρ) = pmatch W p v (scope nm b ρ)) →
        (∀ b, (f b).map (fun b => scope nm b ρ) = pmatch W q v (scope nm b ρ)) →
        ((smatch W s1 v b).bind f).map (fun b => scope nm b ρ) = pmatch W (.and p q) v (scope nm b ρ) := by
      intro s1 f h1 h2
      simp only [pmatch]
      rw [← h1 b]
      cases smatch W s1 v b with
      | none => rfl
      | some b1 => simpa using h2 b1
    cases q with
    | cond e =>
      simp only [Option.map_eq_some_iff, _root_.Prod.exists, _root_.Prod.mk.injEq] at h
      obtain ⟨as, k1, e, rfl, rfl⟩ := h
      exact hi.elim
    | rest =>
      simp only [Option.bind_eq_some_iff, Option.map_eq_some_iff, _root_.Prod.exists, _root_.Prod.mk.injEq] at h
      obtain ⟨s1, k1, e, s2, k2, e', rfl, rfl⟩ := h
      simp [dumpP] at e'
      rw [← e'.1] at hi
      exact hi.2.elim
    | call c ps =>
      simp only [Option.bind_eq_some_iff, Option.map_eq_some_iff, _root_.Prod.exists, _root_.Prod.mk.injEq] at h
      obtain ⟨s1, k1, e, as, k2, e', rfl, rfl⟩ := h
      have h1 := fun b => smatch_spec p _ _ _ _ e hi.1 hxp v b ρ
      simp only [smatch]
      split
      · rename_i hc
        refine glue h1 fun b => ?_
        simp only [pmatch, hc, if_true]
        exact smatchAll_spec ps _ _ _ e' hi.2.2 hxq (W.fields v) b ρ
      · rename_i hc
        simp only [pmatch, hc, if_false, Option.map_none]
        cases pmatch W p v (scope nm b ρ) <;> rfl
    | seq ps =>
      simp only [Option.bind_eq_some_iff, Option.map_eq_some_iff, _root_.Prod.exists, _root_.Prod.mk.injEq] at h
      obtain ⟨s1, k1, e, as, k2, e', rfl, rfl⟩ := h
      have h1 := fun b => smatch_spec p _ _ _ _ e hi.1 hxp v b ρ
      simp only [smatch]
      refine glue h1 fun b => ?_
      simp only [pmatch]
      exact smatchSeq_spec ps _ _ _ e' hi.2 hxq (W.elems v) b ρ
    | typed t q =>
      simp only [Option.bind_eq_some_iff, Option.map_eq_some_iff, _root_.Prod.exists, _root_.Prod.mk.injEq] at h
      obtain ⟨s1, k1, e, s2, k2, e', rfl, rfl⟩ := h
      exact glue (fun b => smatch_spec p _ _ _ _ e hi.1 hxp v b ρ) (fun b => smatch_spec _ _ _ _ _ e' hi.2 hxq v b ρ)
    | and q1 q2 =>
      simp only [Option.bind_eq_some_iff, Option.map_eq_some_iff, _root_.Prod.exists, _root_.Prod.mk.injEq] at h
      obtain ⟨s1, k1, e, s2, k2, e', rfl, rfl⟩ := h
      exact glue (fun b => smatch_spec p _ _ _ _ e hi.1 hxp v b ρ) (fun b => smatch_spec _ _ _ _ _ e' hi.2 hxq v b ρ)
    | var x =>
      simp only [Option.bind_eq_some_iff, Option.map_eq_some_iff, _root_.Prod.exists, _root_.Prod.mk.injEq] at h
      obtain ⟨s1, k1, e, s2, k2, e', rfl, rfl⟩ := h
      exact glue (fun b => smatch_spec p _ _ _ _ e hi.1 hxp v b ρ) (fun b => smatch_spec _ _ _ _ _ e' hi.2 hxq v b ρ)
    | wild =>
      simp only [Option.bind_eq_some_iff, Option.map_eq_some_iff, _root_.Prod.exists, _root_.Prod.mk.injEq] at h
      obtain ⟨s1, k1, e, s2, k2, e', rfl, rfl⟩ := h
      exact glue (fun b => smatch_spec p _ _ _ _ e hi.1 hxp v b ρ) (fun b => smatch_spec _ _ _ _ _ e' hi.2 hxq v b ρ)
  | .var x, next, k, s, k', h, hi, hx, v, b, ρ => by
    simp [dumpP] at h
    obtain ⟨rfl, rfl⟩ := h
    simp only [smatch, pmatch, Option.map_some]
    rw [scope_bound (hx _ (by simp [patVars]))]
  | .wild, next, k, s, k', h, hi, hx, v, b, ρ => by
    simp [dumpP] at h
    obtain ⟨rfl, rfl⟩ := h
    simp only [smatch, pmatch, Option.map_some]
    rw [scope_numbered ha]
  | .cond _, next, k, s, k', h, hi, hx, v, b, ρ => by simp [dumpP] at h
  | .rest, next, k, s, k', h, hi, hx, v, b, ρ => by
    simp only [dumpP] at h
    split at h
    · cases h
    · cases h; exact hi.elim
theorem smatchAll_spec : ∀ (ps : List (Pat V)) (k : Nat) (as : List (SPat V)) (k' : Nat), actualsP nm ps k = some (as, k') →
    innerAll ar as → (∀ x ∈ patsVars ps, ∀ y, nm.used y = nm.bound x ↔ y = x) → ∀ (vs : List V) (b : List (Name × V))
    (ρ : Env V), (smatchAll W as vs b).map (fun b => scope nm b ρ) = pmatchAll W ps vs (scope nm b ρ)
  | [], k, as, k', h, hi, hx, vs, b, ρ => by
    simp [actualsP] at h
    obtain ⟨rfl, rfl⟩ := h
    cases vs <;> simp [smatchAll, pmatchAll]
  | p :: ps, k, as, k', h, hi, hx, vs, b, ρ => by
    simp only [actualsP, Option.bind_eq_some_iff, Option.map_eq_some_iff, _root_.Prod.exists, _root_.Prod.mk.injEq] at h
    obtain ⟨s1, k1, e, s2, k2, e', rfl, rfl⟩ := h
    cases vs with
    | nil => simp [smatchAll, pmatchAll]
    | cons v vs =>
      simp only [smatchAll, pmatchAll]
      rw [← smatch_spec p _ _ _ _ e hi.1 (fun x hm => hx x (by simp [patsVars, hm])) v b ρ]
      cases smatch W s1 v b with
      | none => rfl
      | some b1 => simpa using smatchAll_spec ps _ _ _ e' hi.2 (fun x hm => hx x (by simp [patsVars, hm])) vs b1 ρ
theorem smatchSeq_spec : ∀ (ps : List (Pat V)) (k : Nat) (as : List (SPat V)) (k' : Nat), actualsP nm ps k = some (as, k') →
    innerSeq ar as → (∀ x ∈ patsVars ps, ∀ y, nm.used y = nm.bound x ↔ y = x) → ∀ (vs : List V) (b : List (Name × V))
    (ρ : Env V), (smatchSeq W as vs b).map (fun b => scope nm b ρ) = pmatchSeq W ps vs (scope nm b ρ)
  | [], k, as, k', h, hi, hx, vs, b, ρ => by
    simp [actualsP] at h
    obtain ⟨rfl, rfl⟩ := h
    cases vs <;> simp [smatchSeq, pmatchSeq]
  | p :: ps, k, as, k', h, hi, hx, vs, b, ρ => by
    have hpl := dump_plainSeq ar nm (p :: ps) k as k' h hi
    simp only [actualsP, Option.bind_eq_some_iff, Option.map_eq_some_iff, _root_.Prod.exists, _root_.Prod.mk.injEq] at h
    obtain ⟨s1, k1, e, s2, k2, e', rfl, rfl⟩ := h
    by_cases hr : p = .rest
    · subst hr
      cases ps with
      | nil =>
        simp [dumpP] at e
        simp [actualsP] at e'
        obtain ⟨rfl, rfl⟩ := e
        obtain ⟨rfl, rfl⟩ := e'
        simp [smatchSeq, pmatchSeq]
      | cons q qs => simp [dumpP] at e
    · have hs1 : s1 ≠ .star := by
        rintro rfl
        exact hr (dump_star e)
      have hs : inner ar s1 ∧ innerSeq ar s2 := by
        cases s1 <;> first | exact hi | exact absurd rfl hs1
      have hS : ∀ vs, smatchSeq W (s1 :: s2) vs b = match vs with
          | [] => none
          | v :: vs => (smatch W s1 v b).bind fun b => smatchSeq W s2 vs b := by
        intro vs
        cases s1 <;> first | exact absurd rfl hs1 | (cases vs <;> simp [smatchSeq])
      have hP : ∀ vs ρ, pmatchSeq W (p :: ps) vs ρ = match vs with
          | [] => none
          | v :: vs => (pmatch W p v ρ).bind fun ρ' => pmatchSeq W ps vs ρ' := by
        intro vs ρ
        cases p <;> first | exact absurd rfl hr | (cases vs <;> simp [pmatchSeq])
      rw [hS, hP]
      cases vs with
      | nil => rfl
      | cons v vs =>
        simp only
        rw [← smatch_spec p _ _ _ _ e hs.1 (fun x hm => hx x (by simp [patsVars, hm])) v b ρ]
        cases smatch W s1 v b with
        | none => rfl
        | some b1 => simpa using smatchSeq_spec ps _ _ _ e' hs.2 (fun x hm => hx x (by simp [patsVars, hm])) vs b1 ρ
end
end

/-! ### The names -/

mutual
theorem svars_named (nm : Names) : ∀ (p : Pat V) (next : Bool) (k : Nat) (s : SPat V) (k' : Nat),
    dumpP nm p next k = some (s, k') → named p → svars s = (patVars p).map nm.bound
  | .typed t p, next, k, s, k', h, hn => by
    cases p <;> simp [dumpP] at h
    · obtain ⟨rfl, rfl⟩ := h; simp [svars, patVars]
    · exact hn.elim
  | .call c ps, next, k, s, k', h, hn => by
    simp only [dumpP, Option.map_eq_some_iff, _root_.Prod.exists, _root_.Prod.mk.injEq] at h
    obtain ⟨as, k1, e, rfl, rfl⟩ := h
    simpa [svars, patVars] using svarsAll_named nm ps _ _ _ e hn
  | .seq ps, next, k, s, k', h, hn => by
    simp only [dumpP, Option.map_eq_some_iff, _root_.Prod.exists, _root_.Prod.mk.injEq] at h
    obtain ⟨as, k1, e, rfl, rfl⟩ := h
    simpa [svars, patVars] using svarsAll_named nm ps _ _ _ e hn
  | .and p q, next, k, s, k', h, hn => by
    rw [dumpP_and] at h
    have hq := hn.2
    cases q with
    | cond e =>
      simp only [Option.map_eq_some_iff, _root_.Prod.exists, _root_.Prod.mk.injEq] at h
      obtain ⟨as, k1, e, rfl, rfl⟩ := h
      simpa [svars, patVars] using svars_named nm p _ _ _ _ e hn.1
    | rest =>
      simp only [Option.bind_eq_some_iff, Option.map_eq_some_iff, _root_.Prod.exists, _root_.Prod.mk.injEq] at h
      obtain ⟨s1, k1, e, s2, k2, e', rfl, rfl⟩ := h
      simp [svars, patVars, svars_named nm p _ _ _ _ e hn.1, svars_named nm _ _ _ _ _ e' hq]
    | call c ps =>
      simp only [Option.bind_eq_some_iff, Option.map_eq_some_iff, _root_.Prod.exists, _root_.Prod.mk.injEq] at h
      obtain ⟨s1, k1, e, as, k2, e', rfl, rfl⟩ := h
      simp [svars, patVars, svars_named nm p _ _ _ _ e hn.1, svarsAll_named nm ps _ _ _ e' hq]
    | seq ps =>
      simp only [Option.bind_eq_some_iff, Option.map_eq_some_iff, _root_.Prod.exists, _root_.Prod.mk.injEq] at h
      obtain ⟨s1, k1, e, as, k2, e', rfl, rfl⟩ := h
      simp [svars, patVars, svars_named nm p _ _ _ _ e hn.1, svarsAll_named nm ps _ _ _ e' hq]
    | typed t q =>
      simp only [Option.bind_eq_some_iff, Option.map_eq_some_iff, _root_.Prod.exists, _root_.Prod.mk.injEq] at h
      obtain ⟨s1, k1, e, s2, k2, e', rfl, rfl⟩ := h
      simp [svars, patVars, svars_named nm p _ _ _ _ e hn.1, svars_named nm (.typed t q) _ _ _ _ e' hq]
    | and q1 q2 =>
      simp only [Option.bind_eq_some_iff, Option.map_eq_some_iff, _root_.Prod.exists, _root_.Prod.mk.injEq] at h
      obtain ⟨s1, k1, e, s2, k2, e', rfl, rfl⟩ := h
      simp [svars, patVars, svars_named nm p _ _ _ _ e hn.1, svars_named nm (.and q1 q2) _ _ _ _ e' hq]
    | var x =>
      simp only [Option.bind_eq_some_iff, Option.map_eq_some_iff, _root_.Prod.exists, _root_.Prod.mk.injEq] at h
      obtain ⟨s1, k1, e, s2, k2, e', rfl, rfl⟩ := h
      simp [svars, patVars, svars_named nm p _ _ _ _ e hn.1, svars_named nm (.var x) _ _ _ _ e' hq]
    | wild => exact hq.elim
  | .var x, next, k, s, k', h, hn => by
    simp [dumpP] at h; obtain ⟨rfl, rfl⟩ := h; simp [svars, patVars]
  | .wild, next, k, s, k', h, hn => hn.elim
  | .cond _, next, k, s, k', h, hn => by simp [dumpP] at h
  | .rest, next, k, s, k', h, hn => by
    simp only [dumpP] at h
    split at h
    · cases h
    · cases h; simp [svars, patVars]
theorem svarsAll_named (nm : Names) : ∀ (ps : List (Pat V)) (k : Nat) (as : List (SPat V)) (k' : Nat),
    actualsP nm ps k = some (as, k') → namedAll ps → svarsAll as = (patsVars ps).map nm.bound
  | [], k, as, k', h, hn => by simp [actualsP] at h; simp [h.1, svarsAll, patsVars]
  | p :: ps, k, as, k', h, hn => by
    simp only [actualsP, Option.bind_eq_some_iff, Option.map_eq_some_iff, _root_.Prod.exists, _root_.Prod.mk.injEq] at h
    obtain ⟨s1, k1, e, s2, k2, e', rfl, rfl⟩ := h
    simp [svarsAll, patsVars, svars_named nm p _ _ _ _ e hn.1, svarsAll_named nm ps _ _ _ e' hn.2]
end

/-- The variables of a rule are numbered by their position. -/
theorem rule_actuals (nm : Names) : ∀ (ps : List (Pat V)) (k : Nat), (∀ p ∈ ps, isVar p) →
    (∀ x ∈ patsVars ps, ∀ j, nm.bound x ≠ numbered j) → ((patsVars ps).map nm.bound).Nodup →
    ∃ as, actualsP nm ps k = some (as, k + ps.length) ∧ as.length = ps.length ∧ (∀ ar, innerAll ar as) ∧
      (svarsAll as).Nodup ∧ ∀ n ∈ svarsAll as, n ∈ (patsVars ps).map nm.bound ∨ ∃ j, k ≤ j ∧ n = numbered j
  | [], k, _, _, _ => ⟨[], by simp [actualsP], rfl, fun _ => trivial, List.nodup_nil, by simp [svarsAll]⟩
  | .var x :: ps, k, h, hx, hd => by
    simp only [patsVars, patVars, List.cons_append, List.nil_append, List.map_cons, List.nodup_cons] at hd
    obtain ⟨as, e, hl, hi, hn, hm⟩ := rule_actuals nm ps (k + 1) (fun p hp => h p (by simp [hp]))
      (fun y hy => hx y (by simp [patsVars, hy])) hd.2
    refine ⟨.var (nm.bound x) :: as, by simp only [actualsP, dumpP, Option.bind_some, e, Option.map_some, List.length_cons]; congr 2; omega, by simp [hl],
      fun ar => ⟨trivial, hi ar⟩, ?_, ?_⟩
    · simp only [svarsAll, svars, List.cons_append, List.nil_append, List.nodup_cons]
      refine ⟨fun hb => ?_, hn⟩
      rcases hm _ hb with hb | ⟨j, _, hb⟩
      · exact hd.1 hb
      · exact hx x (by simp [patsVars, patVars]) j hb
    · intro n hnm
      simp only [svarsAll, svars, List.cons_append, List.nil_append, List.mem_cons] at hnm
      rcases hnm with rfl | hnm
      · left; simp [patsVars, patVars]
      · rcases hm n hnm with hb | ⟨j, hj, hb⟩
        · left
          simp only [patsVars, List.map_append, List.mem_append]
          exact .inr hb
        · exact .inr ⟨j, by omega, hb⟩
  | .wild :: ps, k, h, hx, hd => by
    obtain ⟨as, e, hl, hi, hn, hm⟩ := rule_actuals nm ps (k + 1) (fun p hp => h p (by simp [hp]))
      (fun y hy => hx y (by simpa [patsVars, patVars] using hy)) (by simpa [patsVars, patVars] using hd)
    refine ⟨.var (numbered k) :: as, by simp only [actualsP, dumpP, Option.bind_some, e, Option.map_some, List.length_cons]; congr 2; omega, by simp [hl],
      fun ar => ⟨trivial, hi ar⟩, ?_, ?_⟩
    · simp only [svarsAll, svars, List.cons_append, List.nil_append, List.nodup_cons]
      refine ⟨fun hb => ?_, hn⟩
      rcases hm _ hb with hb | ⟨j, hj, hb⟩
      · obtain ⟨y, hy, hb⟩ := List.mem_map.1 hb
        exact hx y (by simpa [patsVars, patVars] using hy) k hb
      · have := numbered_inj hb
        omega
    · intro n hnm
      simp only [svarsAll, svars, List.cons_append, List.nil_append, List.mem_cons] at hnm
      rcases hnm with rfl | hnm
      · exact .inr ⟨k, Nat.le_refl _, rfl⟩
      · rcases hm n hnm with hb | ⟨j, hj, hb⟩
        · left; simpa [patsVars, patVars] using hb
        · exact .inr ⟨j, by omega, hb⟩
  | .typed _ _ :: ps, k, h, _, _ => (show False from h _ List.mem_cons_self).elim
  | .call _ _ :: ps, k, h, _, _ => (show False from h _ List.mem_cons_self).elim
  | .seq _ :: ps, k, h, _, _ => (show False from h _ List.mem_cons_self).elim
  | .and _ _ :: ps, k, h, _, _ => (show False from h _ List.mem_cons_self).elim
  | .cond _ :: ps, k, h, _, _ => (show False from h _ List.mem_cons_self).elim
  | .rest :: ps, k, h, _, _ => (show False from h _ List.mem_cons_self).elim

end Aps.ScalaPat
