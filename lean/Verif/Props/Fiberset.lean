import Verif.Proofs.Fiberset
/-! # C31 — fiber sets and their worklist (analyze/aps-fiber.c) -/
namespace Aps.Props
open Aps.Fiberset
set_option linter.unusedVariables false

/-- A client call: adding a fiber (for a tree node, with a type) to a set, or taking from the worklist. -/
inductive FsCmd
  | add (e : Entry)
  | take

/-- A history of calls; the results of the `take`s are the addresses returned. -/
def runFs (foreign : Nat → Bool) : List FsCmd → St → Res (List Nat × St)
  | [], st => .ok ([], st)
  | .add e :: cs, st => do
    let st ← addToFiberset foreign st e.fiber e.tnode e.type e.set
    runFs foreign cs st
  | .take :: cs, st => do
    let (a, st) ← getNextFiber st
    let (as, st) ← runFs foreign cs st
    return (a :: as, st)

/-- Specification: the additions that count, in order: of a fiber other than the base fiber, for a tree node of
local type, not yet in that set. -/
def accepted (foreign : Nat → Bool) : List FsCmd → List Entry → List Entry
  | [], acc => acc
  | .add e :: cs, acc =>
    accepted foreign cs
      (if e.fiber = 0 ∨ foreign e.tnode = true ∨ (∃ x ∈ acc, x.set = e.set ∧ x.fiber = e.fiber) then acc else acc ++ [e])
  | .take :: cs, acc => accepted foreign cs acc

/-- Specification: what the `take`s hand out, as positions (from 1) in the list of accepted additions: first in,
first out; 0 (`NULL`) iff everything accepted so far has been handed out. -/
def handed (foreign : Nat → Bool) : List FsCmd → List Entry → Nat → List Nat
  | [], _, _ => []
  | .add e :: cs, acc, k =>
    handed foreign cs
      (if e.fiber = 0 ∨ foreign e.tnode = true ∨ (∃ x ∈ acc, x.set = e.set ∧ x.fiber = e.fiber) then acc else acc ++ [e]) k
  | .take :: cs, acc, k =>
    if k < acc.length then (k + 1) :: handed foreign cs acc (k + 1) else 0 :: handed foreign cs acc k

/-- the sets exist, and the base fiber is not put into a reverse set (a fatal error) -/
def FsOk (n : Nat) : FsCmd → Prop
  | .add e => e.set < n ∧ (e.fiber = 0 → e.type % 2 ≠ 1)
  | .take => True

theorem runFs_spec {n : Nat} {foreign : Nat → Bool} : ∀ (cs : List FsCmd) (hcs : ∀ c ∈ cs, FsOk n c) {st : St} {acc : List Entry}
    {tk : Nat} (inv : Inv n st acc tk),
    ∃ st' tk', runFs foreign cs st = .ok (handed foreign cs acc tk, st') ∧ Inv n st' (accepted foreign cs acc) tk'
  | [], _, st, acc, tk, inv => ⟨st, tk, rfl, inv⟩
  | .add e :: cs, hcs, st, acc, tk, inv => by
    obtain ⟨h1, h2⟩ := hcs (.add e) (by simp)
    obtain ⟨st1, e1, i1⟩ := add_spec (foreign := foreign) inv e h1 h2
    obtain ⟨st', tk', e2, i2⟩ := runFs_spec (foreign := foreign) cs (fun c hc => hcs c (by simp [hc])) i1
    refine ⟨st', tk', ?_, i2⟩
    simp only [runFs, e1, Res.ok_bind, e2, handed]
    rfl
  | .take :: cs, hcs, st, acc, tk, inv => by
    by_cases htk : tk < acc.length
    · obtain ⟨st1, e1, i1, _⟩ := (take_spec inv).1 htk
      obtain ⟨st', tk', e2, i2⟩ := runFs_spec (foreign := foreign) cs (fun c hc => hcs c (by simp [hc])) i1
      refine ⟨st', tk', ?_, i2⟩
      simp only [runFs, e1, Res.ok_bind, e2, handed, if_pos htk]
      rfl
    · have := inv.taken
      have e1 := (take_spec inv).2 (by omega)
      obtain ⟨st', tk', e2, i2⟩ := runFs_spec (foreign := foreign) cs (fun c hc => hcs c (by simp [hc])) inv
      refine ⟨st', tk', ?_, i2⟩
      simp only [runFs, e1, Res.ok_bind, e2, handed, if_neg htk]
      rfl

/-- **C31 (worklist).** Any history of additions and removals runs to completion; the removals return exactly what the
first-in-first-out specification says, and the object returned for position `k` holds the `k`-th accepted addition. -/
theorem C31_worklist {n : Nat} {foreign : Nat → Bool} (cs : List FsCmd) (hcs : ∀ c ∈ cs, FsOk n c) :
    ∃ st, runFs foreign cs (St.init n) = .ok (handed foreign cs [] 0, st) ∧
      ∀ (k : Nat) e, (accepted foreign cs [])[k]? = some e →
        ∃ c, st.cells[k]? = some c ∧ c.fiber = e.fiber ∧ c.tnode = e.tnode ∧ c.type = e.type := by
  obtain ⟨st, tk, e, inv⟩ := runFs_spec (foreign := foreign) cs hcs (Inv.init n)
  exact ⟨st, e, inv.cell⟩

theorem handed_prefix {foreign : Nat → Bool} : ∀ (cs : List FsCmd) (acc : List Entry) (k : Nat), k ≤ acc.length →
    ∃ m, k ≤ m ∧ m ≤ (accepted foreign cs acc).length ∧
      (handed foreign cs acc k).filter (· ≠ 0) = (List.range' (k + 1) (m - k)) ∧
      ((handed foreign cs acc k).getLast? = some 0 → cs.getLast? = some .take → m = (accepted foreign cs acc).length)
  | [], acc, k, h => ⟨k, Nat.le_refl _, h, by simp [handed], by simp [handed]⟩
  | .add e :: cs, acc, k, h => by
    simp only [handed, accepted]
    obtain ⟨m, h1, h2, h3, h4⟩ := handed_prefix (foreign := foreign) cs
      (if e.fiber = 0 ∨ foreign e.tnode = true ∨ (∃ x ∈ acc, x.set = e.set ∧ x.fiber = e.fiber) then acc else acc ++ [e]) k
      (by split <;> (try simp) <;> omega)
    refine ⟨m, h1, h2, h3, fun h5 h6 => h4 h5 ?_⟩
    cases cs with
    | nil => simp at h6
    | cons c cs => rwa [List.getLast?_cons_cons] at h6
  | .take :: cs, acc, k, h => by
    simp only [handed, accepted]
    split
    · rename_i hk
      obtain ⟨m, h1, h2, h3, h4⟩ := handed_prefix (foreign := foreign) cs acc (k + 1) hk
      refine ⟨m, by omega, h2, ?_, ?_⟩
      · rw [List.filter_cons, if_pos (by simp), h3]
        have : m - k = (m - (k + 1)) + 1 := by omega
        rw [this, List.range'_succ]
      · intro h5 h6
        cases cs with
        | nil => simp [handed] at h5
        | cons c cs =>
          rw [List.getLast?_cons_cons] at h6
          refine h4 ?_ h6
          have hne : handed foreign (c :: cs) acc (k + 1) ≠ [] := by
            have : ∀ (cs : List FsCmd) acc k, cs.getLast? = some .take → handed foreign cs acc k ≠ [] := by
              intro cs
              induction cs with
              | nil => intro _ _ h; simp at h
              | cons c cs ih =>
                intro acc k h
                cases c with
                | take => simp only [handed]; split <;> simp
                | add e =>
                  simp only [handed]
                  apply ih
                  cases cs with
                  | nil => simp at h
                  | cons c' cs => rwa [List.getLast?_cons_cons] at h
            exact this _ _ _ h6
          cases hh : handed foreign (c :: cs) acc (k + 1) with
          | nil => exact absurd hh hne
          | cons y ys => rw [hh, List.getLast?_cons_cons] at h5; exact h5
    · rename_i hk
      have hka : k = acc.length := by omega
      obtain ⟨m, h1, h2, h3, h4⟩ := handed_prefix (foreign := foreign) cs acc k h
      refine ⟨m, h1, h2, ?_, ?_⟩
      · rw [List.filter_cons, if_neg (by simp), h3]
      · intro h5 h6
        cases cs with
        | nil => simp only [accepted] at h2 ⊢; omega
        | cons c cs =>
          rw [List.getLast?_cons_cons] at h6
          refine h4 ?_ h6
          cases hh : handed foreign (c :: cs) acc k with
          | nil =>
            exfalso
            have : ∀ (cs : List FsCmd) acc k, cs.getLast? = some .take → handed foreign cs acc k ≠ [] := by
              intro cs
              induction cs with
              | nil => intro _ _ h; simp at h
              | cons c cs ih =>
                intro acc k h
                cases c with
                | take => simp only [handed]; split <;> simp
                | add e =>
                  simp only [handed]
                  apply ih
                  cases cs with
                  | nil => simp at h
                  | cons c' cs => rwa [List.getLast?_cons_cons] at h
            exact this _ _ _ h6 hh
          | cons y ys => rw [hh, List.getLast?_cons_cons] at h5; exact h5

/-- **C31 (exactly once).** The non-`NULL` results of the removals are the objects 1, 2, 3, ..., m of the accepted additions,
each once and in order; and if the history ends with a removal that finds the worklist empty, then m is
the number of accepted additions: nothing was lost. -/
theorem C31_exactly_once {n : Nat} {foreign : Nat → Bool} (cs : List FsCmd) (hcs : ∀ c ∈ cs, FsOk n c) {as : List Nat} {st : St}
    (h : runFs foreign cs (St.init n) = .ok (as, st)) :
    ∃ m, m ≤ (accepted foreign cs []).length ∧ as.filter (· ≠ 0) = List.range' 1 m ∧
      (as.getLast? = some 0 → cs.getLast? = some .take → m = (accepted foreign cs []).length) := by
  obtain ⟨st', e, _⟩ := C31_worklist (foreign := foreign) cs hcs
  rw [h] at e
  simp only [Res.ok.injEq, Prod.mk.injEq] at e
  obtain ⟨rfl, _⟩ := e
  obtain ⟨m, h1, h2, h3, h4⟩ := handed_prefix (foreign := foreign) cs [] 0 (Nat.zero_le _)
  exact ⟨m, h2, by simpa using h3, h4⟩

/-- **C31 (sets).** After any history, membership in set `s` is exactly having been accepted for it, the set's length is
the number of its accepted additions, and no fiber is accepted twice for a set. -/
theorem C31_membership {n : Nat} {foreign : Nat → Bool} (cs : List FsCmd) (hcs : ∀ c ∈ cs, FsOk n c) {as : List Nat} {st : St}
    (h : runFs foreign cs (St.init n) = .ok (as, st)) {s : Nat} (hs : s < n) :
    ∃ a, st.heads[s]? = some a ∧
      (∀ f, memberFiberset st f (st.cells.length + 1) a =
        .ok (decide (∃ e ∈ accepted foreign cs [], e.set = s ∧ e.fiber = f))) ∧
      fibersetLength st (st.cells.length + 1) a = .ok ((accepted foreign cs []).filter (fun e => e.set = s)).length := by
  obtain ⟨st', tk, e, inv⟩ := runFs_spec (foreign := foreign) cs hcs (Inv.init n)
  rw [h] at e
  simp only [Res.ok.injEq, Prod.mk.injEq] at e
  obtain ⟨_, rfl⟩ := e
  obtain ⟨a, ha, hl⟩ := inv.links s hs
  have hle := addrs_length_le s 0 (accepted foreign cs [])
  have hlen := inv.len
  refine ⟨a, ha, fun f => ?_, ?_⟩
  · rw [member_spec (l := addrs s 0 (accepted foreign cs [])) (by omega) hl]
    congr 1
    rw [decide_eq_decide]
    constructor
    · rintro ⟨b, hb, c, hc, hf⟩
      obtain ⟨c', e, h1, h2, h3, h4⟩ := inv.cellAt hb
      rw [hc] at h1; cases h1
      exact ⟨e, h2, h3, by rw [← h4, hf]⟩
    · rintro ⟨e, he, hes, hef⟩
      obtain ⟨i, hi⟩ := List.mem_iff_getElem?.1 he
      obtain ⟨c, hc, hf, _⟩ := inv.cell i e hi
      exact ⟨i + 1, mem_addrs.2 ⟨i, e, hi, hes, by omega⟩, c, by rw [cellAt_succ, hc], by rw [hf, hef]⟩
  · rw [length_spec (l := addrs s 0 (accepted foreign cs [])) (by omega) hl]
    congr 1
    have : ∀ (k : Nat) (es : List Entry), (addrs s k es).length = (es.filter (fun e => e.set = s)).length := by
      intro k es
      induction es generalizing k with
      | nil => simp [addrs]
      | cons e es ih =>
        simp only [addrs, List.filter_cons]
        by_cases h : e.set = s
        · simp [h, ih (k + 1)]
        · simp [h, ih (k + 1)]
    exact this 0 _

/-- **C31 (idempotent).** No (set, fiber) pair is accepted twice. -/
theorem C31_no_duplicates (foreign : Nat → Bool) (cs : List FsCmd) :
    ((accepted foreign cs []).map fun e => (e.set, e.fiber)).Nodup := by
  suffices H : ∀ (cs : List FsCmd) (acc : List Entry), (acc.map fun e => (e.set, e.fiber)).Nodup →
      ((accepted foreign cs acc).map fun e => (e.set, e.fiber)).Nodup from H cs [] (by simp)
  intro cs
  induction cs with
  | nil => intro acc h; exact h
  | cons c cs ih =>
    intro acc h
    cases c with
    | take => exact ih acc h
    | add e =>
      simp only [accepted]
      apply ih
      split
      · exact h
      · rename_i hne
        push Not at hne
        rw [List.map_append, List.nodup_append]
        refine ⟨h, by simp, ?_⟩
        rintro ⟨s, f⟩ hx y hy
        simp only [List.map_cons, List.map_nil, List.mem_singleton] at hy
        subst hy
        obtain ⟨x, hxa, hxe⟩ := List.mem_map.1 hx
        simp only [Prod.mk.injEq] at hxe
        obtain ⟨rfl, rfl⟩ := hxe
        intro hcon
        simp only [Prod.mk.injEq] at hcon
        exact hne.2.2 x hxa hcon.1 hcon.2

/-- **C31 (intersection).** After any history, intersecting two sets gives a set whose fibers are exactly the common ones, each
once; the sets and the worklist are not changed. -/
theorem C31_intersection {n : Nat} {foreign : Nat → Bool} (cs : List FsCmd) (hcs : ∀ c ∈ cs, FsOk n c) {as : List Nat} {st : St}
    (h : runFs foreign cs (St.init n) = .ok (as, st)) {s1 s2 : Nat} (h1 : s1 < n) (h2 : s2 < n) :
    ∃ a1 a2 r st', st.heads[s1]? = some a1 ∧ st.heads[s2]? = some a2 ∧ intersectFiberset st a1 a2 = .ok (r, st') ∧
      st'.heads = st.heads ∧ st'.wlHead = st.wlHead ∧ st'.wlTail = st.wlTail ∧ st.cells <+: st'.cells ∧
      (∀ f, memberFiberset st' f (st'.cells.length + 1) r =
        .ok (decide ((∃ e ∈ accepted foreign cs [], e.set = s1 ∧ e.fiber = f) ∧
          ∃ e ∈ accepted foreign cs [], e.set = s2 ∧ e.fiber = f))) := by
  obtain ⟨st0, tk, e, inv⟩ := runFs_spec (foreign := foreign) cs hcs (Inv.init n)
  rw [h] at e
  simp only [Res.ok.injEq, Prod.mk.injEq] at e
  obtain ⟨_, rfl⟩ := e
  obtain ⟨a1, ha1, hl1⟩ := inv.links s1 h1
  obtain ⟨a2, ha2, hl2⟩ := inv.links s2 h2
  have hle1 := addrs_length_le s1 0 (accepted foreign cs [])
  have hle2 := addrs_length_le s2 0 (accepted foreign cs [])
  have hlen := inv.len
  obtain ⟨r, st', lr, r1, r2, r3, r4, r5, r6, r7⟩ := intersect_loop hl2 (by omega) (fuel := st.cells.length + 1) (l0 := []) (fs0 := 0)
    (List.prefix_refl _) (by omega) hl1 rfl
  refine ⟨a1, a2, r, st', ha1, ha2, r1, r3, r4, r5, r2, fun f => ?_⟩
  have fib : ∀ s, f ∈ (addrs s 0 (accepted foreign cs [])).map (fiberOf st) ↔
      ∃ e ∈ accepted foreign cs [], e.set = s ∧ e.fiber = f := by
    intro s
    rw [List.mem_map]
    constructor
    · rintro ⟨b, hb, hbf⟩
      obtain ⟨c, e, h1, h2, h3, h4⟩ := inv.cellAt hb
      exact ⟨e, h2, h3, by rw [← h4]; simpa [fiberOf, h1] using hbf⟩
    · rintro ⟨e, he, hes, hef⟩
      obtain ⟨i, hi⟩ := List.mem_iff_getElem?.1 he
      obtain ⟨c, hc, hf, _⟩ := inv.cell i e hi
      refine ⟨i + 1, mem_addrs.2 ⟨i, e, hi, hes, by omega⟩, ?_⟩
      simp [fiberOf, cellAt_succ, hc, hf, hef]
  have hlr : lr.length ≤ st'.cells.length := by
    have : ∀ {l : List Nat} {a : Nat}, Links (restOf st') a l → ∀ b ∈ l, 1 ≤ b ∧ b ≤ st'.cells.length := by
      intro l a hl b hb
      obtain ⟨c, hc⟩ := hl.cell b hb
      unfold Fiberset.cellAt at hc
      split at hc
      · cases hc
      · have := (List.getElem?_eq_some_iff.1 hc).1; omega
    have hsub : lr.map (fiberOf st') = _ := r7
    have hl3 := congrArg List.length r7
    simp only [List.length_map, List.map_nil, List.append_nil, List.length_reverse] at hl3
    have := List.length_filter_le (fun f => decide (f ∈ (addrs s2 0 (accepted foreign cs [])).map (fiberOf st)))
      ((addrs s1 0 (accepted foreign cs [])).map (fiberOf st))
    rw [List.length_map] at this
    have := r2.length_le
    omega
  rw [member_spec (l := lr) (by omega) r6]
  congr 1
  rw [decide_eq_decide, ← fib s1, ← fib s2]
  have key : (∃ b ∈ lr, ∃ c, Fiberset.cellAt st' b = some c ∧ c.fiber = f) ↔ f ∈ lr.map (fiberOf st') := by
    rw [List.mem_map]
    constructor
    · rintro ⟨b, hb, c, hc, hf⟩
      exact ⟨b, hb, by simp [fiberOf, hc, hf]⟩
    · rintro ⟨b, hb, hf⟩
      obtain ⟨c, hc⟩ := r6.cell b hb
      exact ⟨b, hb, c, hc, by simpa [fiberOf, hc] using hf⟩
  rw [key, r7]
  simp [List.mem_filter]

/-- Non-vacuity: two sets, a repeated addition, a base fiber, and interleaved removals. -/
def exFs : List FsCmd :=
  [.add ⟨0, 5, 70, 0⟩, .take, .take, .add ⟨1, 5, 71, 2⟩, .add ⟨0, 5, 72, 0⟩, .add ⟨0, 6, 70, 0⟩, .add ⟨1, 0, 70, 0⟩, .take, .take, .take]

example : (∀ c ∈ exFs, FsOk 2 c) ∧
    (match runFs (fun _ => false) exFs (St.init 2) with
      | .ok (as, st) => decide (as = [1, 0, 2, 3, 0]) && decide (st.cells.length = 3)
      | _ => false) = true := by
  constructor
  · simp [exFs, FsOk]
  · decide

end Aps.Props
