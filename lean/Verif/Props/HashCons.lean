import Verif.Proofs.HashConsSet
import Verif.Props.HashTable
/-! # C05, C06 — hash-consing (utilities/hashcons.c) -/
namespace Aps.Props
open Aps.HashCons
open Aps.HashTable (NtpOk)

/-- Running a history of `hash_cons_get` calls; the addresses returned, in order. -/
def runGets {ι : Type} (o : HashCons.Ops ι) (ntp : Nat → Res Nat) : List ι → HC ι → Res (List Nat × HC ι)
  | [], t => .ok ([], t)
  | x :: xs, t => do
    let (a, t) ← hashConsGet o ntp t x
    let (as, t) ← runGets o ntp xs t
    return (a :: as, t)

theorem runGets_spec {ι : Type} {o : HashCons.Ops ι} (ol : o.Lawful) {ntp : Nat → Res Nat} (hn : NtpOk ntp)
    (xs : List ι) {t t' : HC ι} (g : Good o t) {as : List Nat} (h : runGets o ntp xs t = .ok (as, t')) :
    Good o t' ∧ as.length = xs.length ∧ (∀ y b, Canon o t y b → Canon o t' y b) ∧
      ∀ (i : Nat) x a, xs[i]? = some x → as[i]? = some a → Canon o t' x a := by
  induction xs generalizing t as with
  | nil => cases h; exact ⟨g, rfl, fun _ _ h => h, by simp⟩
  | cons x xs ih =>
    rw [runGets, Res.bind_eq_ok] at h
    obtain ⟨⟨a, t1⟩, h1, h⟩ := h
    rw [Res.bind_eq_ok] at h
    obtain ⟨⟨as', t2⟩, h2, h⟩ := h
    simp only [Res.pure_eq, Res.ok.injEq, Prod.mk.injEq] at h
    obtain ⟨rfl, rfl⟩ := h
    have s := HashCons.get_spec ol hn g h1
    obtain ⟨g2, l2, k2, c2⟩ := ih s.good h2
    refine ⟨g2, by simp [l2], fun y b hb => k2 y b (s.keep y b hb), fun i y b hx ha => ?_⟩
    cases i with
    | zero =>
      simp only [List.getElem?_cons_zero, Option.some.injEq] at hx ha
      subst hx; subst ha
      exact k2 _ _ s.canon
    | succ i => exact c2 i y b (by simpa using hx) (by simpa using ha)

/-- **C05 (identity).** In any history of `hash_cons_get` calls on one table, for any equivalence and any
hash function compatible with it, two calls return the same address iff their arguments are equal —
however often the table was rebuilt in between. -/
theorem C05_same_address_iff_equal {ι : Type} {o : HashCons.Ops ι} (ol : o.Lawful) {ntp : Nat → Res Nat}
    (hn : NtpOk ntp) {xs : List ι} {as : List Nat} {t : HC ι}
    (h : runGets o ntp xs (HC.init ι) = .ok (as, t)) {i j : Nat} {x y : ι} {a b : Nat}
    (hx : xs[i]? = some x) (hy : xs[j]? = some y) (ha : as[i]? = some a) (hb : as[j]? = some b) :
    a = b ↔ o.equalf x y = true := by
  obtain ⟨g, _, _, c⟩ := runGets_spec ol hn xs (good_init o) h
  have ca := c i x a hx ha
  have cb := c j y b hy hb
  constructor
  · rintro rfl
    obtain ⟨_, _, _, u, hu, qu⟩ := ca
    obtain ⟨_, _, _, v, hv, qv⟩ := cb
    rw [hu] at hv; cases hv
    exact ol.trans _ _ _ (ol.symm _ _ qu) qv
  · intro h
    rcases g with ⟨_, h0⟩ | ⟨_, inv, _⟩
    · obtain ⟨i, hi, _⟩ := ca; omega
    · exact Canon.unique ol inv ca cb h

/-- **C05 (content).** There is one address per call, and in the final memory it still points to an object equal to
the argument. -/
theorem C05_content {ι : Type} {o : HashCons.Ops ι} (ol : o.Lawful) {ntp : Nat → Res Nat}
    (hn : NtpOk ntp) {xs : List ι} {as : List Nat} {t : HC ι}
    (h : runGets o ntp xs (HC.init ι) = .ok (as, t)) :
    as.length = xs.length ∧
    ∀ {i : Nat} {x : ι} {a : Nat}, xs[i]? = some x → as[i]? = some a →
      a ≠ 0 ∧ ∃ y, t.heap[a - 1]? = some y ∧ o.equalf y x = true := by
  obtain ⟨g, hl, _, c⟩ := runGets_spec ol hn xs (good_init o) h
  refine ⟨hl, fun {i x a} hx ha => ?_⟩
  obtain ⟨a0, _, y, hy, q⟩ := canon_iff.1 (c i x a hx ha)
  refine ⟨a0, y, ?_, q⟩
  unfold load at hy
  rwa [if_neg a0] at hy

/-- **C05 (progress).** Probing always ends: a call returns unless the search for the next capacity
does not. -/
theorem C05_returns {ι : Type} {o : HashCons.Ops ι} (ol : o.Lawful) {ntp : Nat → Res Nat}
    (hn : NtpOk ntp) {xs : List ι} {as : List Nat} {t : HC ι}
    (h : runGets o ntp xs (HC.init ι) = .ok (as, t)) (x : ι)
    (hntp : ∃ c, ntp (2 * (if t.table = [] then 61 else t.capacity) + 1) = .ok c) :
    ∃ r, hashConsGet o ntp t x = .ok r := by
  obtain ⟨g, hl, _, c⟩ := runGets_spec ol hn xs (good_init o) h
  exact HashCons.get_total ol hn g x hntp

/-! ### C06 -/

/-- A client's set-building call; operands are results of earlier calls, by position. -/
inductive SetCmd
  | empty
  | add (item : Nat) (i : Nat)
  | union (i j : Nat)
  | ofArray (elements : List Nat)

/-- The content of the `i`-th result so far; using a result that does not exist is a client error. -/
def contentOf (t : HC (List Nat)) (as : List Nat) (i : Nat) : Res (List Nat) :=
  match as[i]? with
  | none => .ub
  | some a =>
    match load t a with
    | none => .ub
    | some s => .ok s

/-- One call of the set API. -/
def execCmd (ntp : Nat → Res Nat) (t : HC (List Nat)) (as : List Nat) : SetCmd → Res (Nat × HC (List Nat))
  | .empty => emptySet ntp t
  | .add x i => do
    let s ← contentOf t as i
    addSet ntp t x s
  | .union i j => do
    let a ← contentOf t as i
    let b ← contentOf t as j
    unionSet ntp t a b
  | .ofArray l => newSet ntp t l

/-- A history of calls: the list of addresses returned grows at the end. -/
def runCmds (ntp : Nat → Res Nat) : List SetCmd → List Nat → HC (List Nat) → Res (List Nat × HC (List Nat))
  | [], as, t => .ok (as, t)
  | c :: cs, as, t => do
    let (a, t) ← execCmd ntp t as c
    runCmds ntp cs (as ++ [a]) t

/-- Specification: the finite set each call should denote. -/
def denote (ds : List (Finset Nat)) : SetCmd → Finset Nat
  | .empty => ∅
  | .add x i => insert x (ds.getD i ∅)
  | .union i j => ds.getD i ∅ ∪ ds.getD j ∅
  | .ofArray l => l.toFinset

/-- The sets denoted by a history of calls. -/
def denotes : List SetCmd → List (Finset Nat) → List (Finset Nat)
  | [], ds => ds
  | c :: cs, ds => denotes cs (ds ++ [denote ds c])

/-- Arrays given to `new_hash_cons_set` have no repeated element and only user-space addresses. -/
def CmdOk : SetCmd → Prop
  | .ofArray l => l.Nodup ∧ ∀ x ∈ l, x < 2 ^ 63
  | _ => True

/-- what holds of the results of a history -/
def Results (t : HC (List Nat)) (as : List Nat) (ds : List (Finset Nat)) : Prop :=
  as.length = ds.length ∧ ∀ (i : Nat) a d, as[i]? = some a → ds[i]? = some d →
    ∃ s, Canon setOps t s a ∧ load t a = some s ∧ s.Pairwise (· < ·) ∧ s.toFinset = d

theorem get_set_spec {ntp : Nat → Res Nat} (hn : NtpOk ntp) {t t' : HC (List Nat)}
    (g : Good setOps t) {s : List Nat} {a : Nat} (h : hashConsGet setOps ntp t s = .ok (a, t'))
    {as : List Nat} {ds : List (Finset Nat)} (r : Results t as ds) (hs : s.Pairwise (· < ·)) :
    Good setOps t' ∧ Results t' (as ++ [a]) (ds ++ [s.toFinset]) := by
  have st := HashCons.get_spec setOps_lawful hn g h
  refine ⟨st.good, by simp [r.1], fun i b d hb hd => ?_⟩
  have hl := r.1
  by_cases hi : i < as.length
  · rw [List.getElem?_append_left hi] at hb
    rw [List.getElem?_append_left (by omega)] at hd
    obtain ⟨s', c, l, so, e⟩ := r.2 i b d hb hd
    exact ⟨s', st.keep _ _ c, load_prefix st.heap l, so, e⟩
  · rw [List.getElem?_append_right (by omega)] at hb hd
    rw [← hl] at hd
    rcases hz : i - as.length with _ | n
    · rw [hz] at hb hd
      simp only [List.getElem?_cons_zero, Option.some.injEq] at hb hd
      subst hb; subst hd
      obtain ⟨_, _, y, hy, q⟩ := canon_iff.1 st.canon
      have : y = s := (setEqual_iff _ _).1 q
      subst this
      exact ⟨y, st.canon, hy, hs, rfl⟩
    · rw [hz] at hb; simp at hb

theorem contentOf_ok {t : HC (List Nat)} {as : List Nat} {ds : List (Finset Nat)} (r : Results t as ds)
    {i : Nat} {s : List Nat} (h : contentOf t as i = .ok s) :
    s.Pairwise (· < ·) ∧ s.toFinset = ds.getD i ∅ := by
  unfold contentOf at h
  rcases ha : as[i]? with _ | a
  · rw [ha] at h; cases h
  · rw [ha] at h
    simp only at h
    have hi : i < ds.length := by rw [← r.1]; exact (List.getElem?_eq_some_iff.1 ha).1
    obtain ⟨s', _, l, so, e⟩ := r.2 i a ds[i] ha (List.getElem?_eq_getElem hi)
    rw [l] at h; cases h
    exact ⟨so, by rw [e]; simp [hi]⟩

theorem exec_spec {ntp : Nat → Res Nat} (hn : NtpOk ntp) {t t' : HC (List Nat)}
    (g : Good setOps t) {as : List Nat} {ds : List (Finset Nat)} (r : Results t as ds) {c : SetCmd} (hc : CmdOk c)
    {a : Nat} (h : execCmd ntp t as c = .ok (a, t')) :
    Good setOps t' ∧ Results t' (as ++ [a]) (ds ++ [denote ds c]) := by
  cases c with
  | empty => simpa [denote] using get_set_spec hn g h r List.Pairwise.nil
  | add x i =>
    rw [execCmd, Res.bind_eq_ok] at h
    obtain ⟨s, hs, h⟩ := h
    obtain ⟨so, e⟩ := contentOf_ok r hs
    have := get_set_spec hn g h r (sorted_merge [x] s (by simp) so)
    have e2 : (mergeElements [x] s).toFinset = denote ds (.add x i) := by
      rw [denote, ← e]; ext y; simp [mem_merge]
    rwa [e2] at this
  | union i j =>
    rw [execCmd, Res.bind_eq_ok] at h
    obtain ⟨s, hs, h⟩ := h
    rw [Res.bind_eq_ok] at h
    obtain ⟨s2, hs2, h⟩ := h
    obtain ⟨so, e⟩ := contentOf_ok r hs
    obtain ⟨so2, e2⟩ := contentOf_ok r hs2
    have := get_set_spec hn g h r (sorted_merge s s2 so so2)
    have e3 : (mergeElements s s2).toFinset = denote ds (.union i j) := by
      rw [denote, ← e, ← e2]; ext y; simp [mem_merge]
    rwa [e3] at this
  | ofArray l =>
    have := get_set_spec hn g h r (sortElements_strict l hc.1 hc.2)
    have e3 : (sortElements l).toFinset = denote ds (.ofArray l) := by
      ext y; simp [denote, (sortElements_perm l).mem_iff]
    rwa [e3] at this

theorem runCmds_spec {ntp : Nat → Res Nat} (hn : NtpOk ntp) (cs : List SetCmd) (hcs : ∀ c ∈ cs, CmdOk c)
    {t t' : HC (List Nat)} (g : Good setOps t) {as as' : List Nat} {ds : List (Finset Nat)}
    (r : Results t as ds) (h : runCmds ntp cs as t = .ok (as', t')) :
    Good setOps t' ∧ Results t' as' (denotes cs ds) := by
  induction cs generalizing t as ds with
  | nil => cases h; exact ⟨g, r⟩
  | cons c cs ih =>
    rw [runCmds, Res.bind_eq_ok] at h
    obtain ⟨⟨a, t1⟩, h1, h⟩ := h
    obtain ⟨g1, r1⟩ := exec_spec hn g r (hcs c (by simp)) h1
    exact ih (fun c hc => hcs c (by simp [hc])) g1 r1 h

/-- **C06 (elements).** Each call of a history yields a set whose stored elements are exactly those of the
set it denotes, without repetition. -/
theorem C06_elements {ntp : Nat → Res Nat} (hn : NtpOk ntp) {cs : List SetCmd} (hcs : ∀ c ∈ cs, CmdOk c)
    {as : List Nat} {t : HC (List Nat)} (h : runCmds ntp cs [] (HC.init _) = .ok (as, t))
    {i a : Nat} {d : Finset Nat} (ha : as[i]? = some a) (hd : (denotes cs [])[i]? = some d) :
    ∃ s : List Nat, t.heap[a - 1]? = some s ∧ s.Nodup ∧ ∀ x, x ∈ s ↔ x ∈ d := by
  obtain ⟨g, r⟩ := runCmds_spec hn cs hcs (good_init _) (ds := []) ⟨rfl, by simp⟩ h
  obtain ⟨s, _, l, so, e⟩ := r.2 i a d ha hd
  refine ⟨s, ?_, so.imp ne_of_lt, fun x => by rw [← e]; simp⟩
  unfold load at l
  split at l
  · cases l
  · exact l

/-- **C06 (canonicity).** Two results of a history have the same address iff they denote the same set. -/
theorem C06_canonical {ntp : Nat → Res Nat} (hn : NtpOk ntp) {cs : List SetCmd} (hcs : ∀ c ∈ cs, CmdOk c)
    {as : List Nat} {t : HC (List Nat)} (h : runCmds ntp cs [] (HC.init _) = .ok (as, t))
    {i j a b : Nat} {d e : Finset Nat} (ha : as[i]? = some a) (hb : as[j]? = some b)
    (hd : (denotes cs [])[i]? = some d) (he : (denotes cs [])[j]? = some e) :
    a = b ↔ d = e := by
  obtain ⟨g, r⟩ := runCmds_spec hn cs hcs (good_init _) (ds := []) ⟨rfl, by simp⟩ h
  obtain ⟨s, c, l, so, es⟩ := r.2 i a d ha hd
  obtain ⟨s', c', l', so', es'⟩ := r.2 j b e hb he
  constructor
  · rintro rfl
    rw [l] at l'; cases l'
    rw [← es, ← es']
  · rintro rfl
    have : s = s' := sorted_ext so so' (es.trans es'.symm)
    subst this
    rcases g with ⟨_, h0⟩ | ⟨_, inv, _⟩
    · obtain ⟨i, hi, _⟩ := c; omega
    · exact Canon.unique setOps_lawful inv c c' ((setEqual_iff s s).2 rfl)

/-- Non-vacuity: `{7} ∪ {3}` built two ways. The prime search is not needed for such a small table. -/
example : ∃ t, runCmds (fun _ => .nofuel)
    [.empty, .add 7 0, .add 3 1, .ofArray [7, 3], .add 3 0, .union 1 4] [] (HC.init _)
      = .ok ([1, 2, 3, 3, 4, 3], t) := ⟨_, rfl⟩

/-- The array form is canonical only for arrays without repetitions: the property fails for a
repeated element (the "set" keeps both copies and gets another address). -/
theorem C06_array_with_duplicates_refuted :
    ∃ t, runCmds (fun _ => .nofuel) [.ofArray [7, 7], .ofArray [7]] [] (HC.init _) = .ok ([1, 2], t) ∧
      denotes [.ofArray [7, 7], .ofArray [7]] [] = [{7}, {7}] := ⟨_, rfl, by decide⟩

/-- ... and only for addresses below 2^63: the array form sorts by signed comparison, the union by
unsigned comparison. -/
theorem C06_array_high_address_refuted :
    ∃ t, runCmds (fun _ => .nofuel) [.ofArray [2 ^ 63, 1], .empty, .add 1 1, .add (2 ^ 63) 2] [] (HC.init _)
      = .ok ([1, 2, 3, 4], t) ∧
      (denotes [.ofArray [2 ^ 63, 1], .empty, .add 1 1, .add (2 ^ 63) 2] [])[0]? =
      (denotes [.ofArray [2 ^ 63, 1], .empty, .add 1 1, .add (2 ^ 63) 2] [])[3]? := ⟨_, rfl, by decide⟩

end Aps.Props
