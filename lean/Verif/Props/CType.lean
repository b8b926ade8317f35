import Verif.Proofs.CTypeTerm
/-! # C29, C30 — canonical types (analyze/canonical-type.c) -/
namespace Aps.Props
open Aps.HashCons Aps.CType
open Aps.HashTable (NtpOk)
set_option linter.unusedVariables false

/-- A client's type-building call; operand types are results of earlier calls, by position. -/
inductive TyCmd
  | use (decl : Nat)
  | qual (i : Nat) (decl : Nat)
  | func (params : List Nat) (ret : Nat)

/-- The addresses of earlier results; using one that does not exist is a client error. -/
def argAddrs (as : List Nat) : List Nat → Res (List Nat)
  | [] => .ok []
  | i :: is =>
    match as[i]? with
    | none => .ub
    | some a => do
      let r ← argAddrs as is
      return a :: r

/-- One call. -/
def execTy (ntp : Nat → Res Nat) (t : HC Node) (as : List Nat) : TyCmd → Res (Nat × HC Node)
  | .use d => newType ntp t (.use d)
  | .qual i d =>
    match as[i]? with
    | none => .ub
    | some a => newType ntp t (.qual d a)
  | .func is j =>
    match as[j]? with
    | none => .ub
    | some r => do
      let ps ← argAddrs as is
      newType ntp t (.func r ps)

/-- A history of calls; the list of addresses returned grows at the end. -/
def runTys (ntp : Nat → Res Nat) : List TyCmd → List Nat → HC Node → Res (List Nat × HC Node)
  | [], as, t => .ok (as, t)
  | c :: cs, as, t => do
    let (a, t) ← execTy ntp t as c
    runTys ntp cs (as ++ [a]) t

/-- Specification: the type term each call should denote. -/
def tyOf (ds : List Ty) : TyCmd → Ty
  | .use d => .use d
  | .qual i d => .qual (ds.getD i (.use 0)) d
  | .func is j => .func (is.map fun i => ds.getD i (.use 0)) (ds.getD j (.use 0))

/-- The type terms denoted by a history of calls. -/
def tysOf : List TyCmd → List Ty → List Ty
  | [], ds => ds
  | c :: cs, ds => tysOf cs (ds ++ [tyOf ds c])

/-- each result denotes the type term of its call -/
def TyResults (t : HC Node) (as : List Nat) (ds : List Ty) : Prop :=
  as.length = ds.length ∧ ∀ (i : Nat) a d, as[i]? = some a → ds[i]? = some d → Rep t.heap a d

theorem TyResults.get {t : HC Node} {as : List Nat} {ds : List Ty} (r : TyResults t as ds) {i a : Nat}
    (h : as[i]? = some a) : Rep t.heap a (ds.getD i (.use 0)) := by
  have hi : i < ds.length := by rw [← r.1]; exact (List.getElem?_eq_some_iff.1 h).1
  have := r.2 i a ds[i] h (List.getElem?_eq_getElem hi)
  simpa [List.getD, hi] using this

theorem argAddrs_spec {t : HC Node} {as : List Nat} {ds : List Ty} (r : TyResults t as ds) :
    ∀ {is ps : List Nat}, argAddrs as is = .ok ps →
      ps.length = is.length ∧
      ∀ (i : Nat) p P, ps[i]? = some p → (is.map fun i => ds.getD i (.use 0))[i]? = some P → Rep t.heap p P
  | [], ps, h => by cases h; simp
  | j :: is, ps, h => by
    unfold argAddrs at h
    rcases ha : as[j]? with _ | a
    · rw [ha] at h; cases h
    · rw [ha] at h
      simp only at h
      rw [Res.bind_eq_ok] at h
      obtain ⟨q, hq, h⟩ := h
      simp only [Res.pure_eq, Res.ok.injEq] at h
      subst h
      obtain ⟨h1, h2⟩ := argAddrs_spec r hq
      refine ⟨by simp [h1], fun i p P hp hP => ?_⟩
      cases i with
      | zero =>
        simp only [List.getElem?_cons_zero, Option.some.injEq, List.map_cons] at hp hP
        subst hp; subst hP
        exact r.get ha
      | succ i => exact h2 i p P (by simpa using hp) (by simpa using hP)

theorem execTy_spec {ntp : Nat → Res Nat} (hn : NtpOk ntp) {t t' : HC Node} (inv : TInv t) {as : List Nat}
    {ds : List Ty} (r : TyResults t as ds) {c : TyCmd} {a : Nat} (h : execTy ntp t as c = .ok (a, t')) :
    TInv t' ∧ TyResults t' (as ++ [a]) (ds ++ [tyOf ds c]) := by
  have main : ∀ n, (∀ c ∈ n.kids, 1 ≤ c ∧ c ≤ t.heap.length) → newType ntp t n = .ok (a, t') →
      (∀ mem, t.heap <+: mem → at? mem a = some n → Rep mem a (tyOf ds c)) →
      TInv t' ∧ TyResults t' (as ++ [a]) (ds ++ [tyOf ds c]) := by
    intro n hk hnew hrep
    obtain ⟨i1, pre, hat⟩ := newType_spec hn inv hk hnew
    refine ⟨i1, by simp [r.1], fun i b d hb hd => ?_⟩
    have hl := r.1
    by_cases hi : i < as.length
    · rw [List.getElem?_append_left hi] at hb
      rw [List.getElem?_append_left (by omega)] at hd
      exact (r.2 i b d hb hd).mono pre
    · rw [List.getElem?_append_right (by omega)] at hb hd
      rw [← hl] at hd
      rcases hz : i - as.length with _ | m
      · rw [hz] at hb hd
        simp only [List.getElem?_cons_zero, Option.some.injEq] at hb hd
        subst hb; subst hd
        exact hrep _ pre hat
      · rw [hz] at hb; simp at hb
  cases c with
  | use d =>
    exact main (.use d) (by simp [Node.kids]) h (fun mem _ hat => .use hat)
  | qual i d =>
    simp only [execTy] at h
    rcases ha : as[i]? with _ | s
    · rw [ha] at h; cases h
    · rw [ha] at h
      have hs := r.get ha
      exact main (.qual d s) (by simpa [Node.kids] using hs.valid) h (fun mem pre hat => .qual hat (hs.mono pre))
  | func is j =>
    simp only [execTy] at h
    rcases ha : as[j]? with _ | s
    · rw [ha] at h; cases h
    · rw [ha] at h
      simp only at h
      rw [Res.bind_eq_ok] at h
      obtain ⟨ps, hps, h⟩ := h
      have hs := r.get ha
      obtain ⟨hl, hp⟩ := argAddrs_spec r hps
      refine main (.func s ps) ?_ h (fun mem pre hat => .func hat (hs.mono pre) (by simpa using hl)
        (fun i p P h1 h2 => (hp i p P h1 h2).mono pre))
      intro c hc
      rcases List.mem_cons.1 hc with rfl | hc
      · exact hs.valid
      · obtain ⟨k, hk⟩ := List.mem_iff_getElem?.1 hc
        have hk' : k < is.length := by rw [← hl]; exact (List.getElem?_eq_some_iff.1 hk).1
        exact (hp k c _ hk (by rw [List.getElem?_map, List.getElem?_eq_getElem hk']; rfl)).valid

theorem runTys_spec {ntp : Nat → Res Nat} (hn : NtpOk ntp) (cs : List TyCmd) {t t' : HC Node} (inv : TInv t)
    {as as' : List Nat} {ds : List Ty} (r : TyResults t as ds) (h : runTys ntp cs as t = .ok (as', t')) :
    TInv t' ∧ TyResults t' as' (tysOf cs ds) := by
  induction cs generalizing t as ds with
  | nil => cases h; exact ⟨inv, r⟩
  | cons c cs ih =>
    rw [runTys, Res.bind_eq_ok] at h
    obtain ⟨⟨a, t1⟩, h1, h⟩ := h
    obtain ⟨i1, r1⟩ := execTy_spec hn inv r h1
    exact ih i1 r1 h

/-- **C29 (hash).** In every memory (whatever objects it holds), types that are equal for
`canonical_type_equal` have the same `canonical_type_hash`. -/
theorem C29_equal_hash (mem : List Node) (f a b : Nat) (h : typeEqual mem f a b = true) :
    typeHash mem f a = typeHash mem f b := typeHash_of_equal mem f a b h

/-- **C29 (equality).** `canonical_type_equal` is symmetric and transitive in every memory. -/
theorem C29_equal_symm_trans (mem : List Node) (f : Nat) :
    (∀ a b, typeEqual mem f a b = true → typeEqual mem f b a = true) ∧
    (∀ a b c, typeEqual mem f a b = true → typeEqual mem f b c = true → typeEqual mem f a c = true) :=
  ⟨typeEqual_symm mem f, typeEqual_trans mem f⟩

/-- **C29 (canonicity).** In any history of type constructions, two results have the same address iff they
denote the same type term, and this is what `canonical_type_equal` decides. -/
theorem C29_canonical {ntp : Nat → Res Nat} (hn : NtpOk ntp) {cs : List TyCmd} {as : List Nat} {t : HC Node}
    (h : runTys ntp cs [] (HC.init _) = .ok (as, t)) {i j a b : Nat} {A B : Ty}
    (ha : as[i]? = some a) (hb : as[j]? = some b)
    (hA : (tysOf cs [])[i]? = some A) (hB : (tysOf cs [])[j]? = some B) :
    (a = b ↔ A = B) ∧ (typeEqual t.heap (t.heap.length + 1) a b = true ↔ A = B) := by
  obtain ⟨inv, r⟩ := runTys_spec hn cs TInv.init (ds := []) ⟨rfl, by simp⟩ h
  have ra := r.2 i a A ha hA
  have rb := r.2 j b B hb hB
  have key : a = b ↔ A = B := by
    constructor
    · rintro rfl; exact ra.fun rb
    · rintro rfl; exact ra.inj inv.nodup rb
  refine ⟨key, ?_⟩
  rw [← key]
  exact typeEqual_eq inv.ordered inv.nodup _ a b ra.valid.1 ra.valid.2 (by have := ra.valid.2; omega) rb.valid.1 rb.valid.2

/-- **C29 (content).** There is one result per call, and reading back from its address gives the constructor of the
term denoted (so, with canonicity, the whole term). -/
theorem C29_content {ntp : Nat → Res Nat} (hn : NtpOk ntp) {cs : List TyCmd} {as : List Nat} {t : HC Node}
    (h : runTys ntp cs [] (HC.init _) = .ok (as, t)) :
    as.length = (tysOf cs []).length ∧
    ∀ {i a : Nat} {A : Ty}, as[i]? = some a → (tysOf cs [])[i]? = some A → Rep t.heap a A := by
  obtain ⟨inv, r⟩ := runTys_spec hn cs TInv.init (ds := []) ⟨rfl, by simp⟩ h
  exact ⟨r.1, fun {i a A} h1 h2 => r.2 i a A h1 h2⟩

/-- Non-vacuity: `(T) => S`, `T$R` built twice with other types in between. -/
def exTys : List TyCmd :=
  [.use 100, .use 200, .qual 0 300, .func [0, 2] 1, .use 100, .qual 4 300, .func [4, 5] 1, .func [1] 1]

example : ∃ t, runTys (fun _ => .nofuel) exTys [] (HC.init _) = .ok ([1, 2, 3, 4, 1, 3, 4, 5], t) :=
  ⟨_, rfl⟩

/-- `canonical_type_equal` is not reflexive on function types with a `NULL` parameter type (which
`canonical_type` returns, with a message, for types it does not know): each construction makes a new object. -/
theorem C29_null_refuted :
    ∃ t t', newType (fun _ => .nofuel) (HC.init _) (.func 0 [0]) = .ok (1, t) ∧
      newType (fun _ => .nofuel) t (.func 0 [0]) = .ok (2, t') ∧
      ∀ f, typeEqual t.heap f 1 1 = false := by
  refine ⟨_, _, rfl, rfl, ?_⟩
  intro f
  cases f with
  | zero => rfl
  | succ f =>
    cases f with
    | zero => rfl
    | succ f => rfl

/-! ## C30 -/

/-- Setting for C30: two results of a history and their comparison. -/
theorem compare_results {ntp : Nat → Res Nat} (hn : NtpOk ntp) {cs : List TyCmd} {as : List Nat} {t : HC Node}
    (h : runTys ntp cs [] (HC.init _) = .ok (as, t)) (line : Nat → Int) {a b : Nat} (ha : a ∈ as) (hb : b ∈ as) :
    ∃ A B, Rep t.heap a A ∧ Rep t.heap b B ∧
      typeCompare line t.heap (t.heap.length + 1) a b = .ok (cmpTy line A B) := by
  obtain ⟨inv, r⟩ := runTys_spec hn cs TInv.init (ds := []) ⟨rfl, by simp⟩ h
  obtain ⟨i, hi⟩ := List.mem_iff_getElem?.1 ha
  obtain ⟨j, hj⟩ := List.mem_iff_getElem?.1 hb
  have ra := r.get hi
  have rb := r.get hj
  exact ⟨_, _, ra, rb, typeCompare_spec inv.ordered _ a b _ _ (by have := ra.valid.2; omega) ra rb⟩

/-- **C30 (order).** On the types of any history of constructions, with any line numbers, comparison
always returns, is antisymmetric (in sign and magnitude), 0 on identical types, and `≤` is transitive: a total preorder. -/
theorem C30_total_preorder {ntp : Nat → Res Nat} (hn : NtpOk ntp) {cs : List TyCmd} {as : List Nat} {t : HC Node}
    (h : runTys ntp cs [] (HC.init _) = .ok (as, t)) (line : Nat → Int) :
    ∃ cmp : Nat → Nat → Int,
      (∀ a ∈ as, ∀ b ∈ as, typeCompare line t.heap (t.heap.length + 1) a b = .ok (cmp a b)) ∧
      (∀ a ∈ as, cmp a a = 0) ∧
      (∀ a ∈ as, ∀ b ∈ as, cmp b a = - cmp a b) ∧
      (∀ a ∈ as, ∀ b ∈ as, ∀ c ∈ as, cmp a b ≤ 0 → cmp b c ≤ 0 → cmp a c ≤ 0) := by
  refine ⟨fun a b => match typeCompare line t.heap (t.heap.length + 1) a b with | .ok r => r | _ => 0, ?_, ?_, ?_, ?_⟩
  · intro a ha b hb
    obtain ⟨A, B, _, _, e⟩ := compare_results hn h line ha hb
    simp only [e]
  · intro a ha
    obtain ⟨A, B, ra, rb, e⟩ := compare_results hn h line ha ha
    simp only [e]
    rw [ra.fun rb, cmpTy_refl]
  · intro a ha b hb
    obtain ⟨A, B, ra, rb, e⟩ := compare_results hn h line ha hb
    obtain ⟨B', A', rb', ra', e'⟩ := compare_results hn h line hb ha
    simp only [e, e']
    rw [ra'.fun ra, rb'.fun rb, cmpTy_neg]
  · intro a ha b hb c hc
    obtain ⟨A, B, ra, rb, e⟩ := compare_results hn h line ha hb
    obtain ⟨B', C, rb', rc, e'⟩ := compare_results hn h line hb hc
    obtain ⟨A', C', ra', rc', e2⟩ := compare_results hn h line ha hc
    simp only [e, e', e2]
    rw [ra'.fun ra, rb'.fun rb, rc'.fun rc]
    intro h1 h2
    rcases Int.lt_or_eq_of_le h1 with h1 | h1
    · rcases Int.lt_or_eq_of_le h2 with h2 | h2
      · exact Int.le_of_lt (cmpTy_trans line A B C h1 h2)
      · have := cmpTy_zero line B C A h2
        have n1 := cmpTy_neg line B A
        have n2 := cmpTy_neg line C A
        omega
    · rw [cmpTy_zero line A B C h1]; exact h2

/-- **C30 (consistent with identity), partial.** If the declarations used are on different lines, comparison gives 0
only for identical types. -/
theorem C30_identity_partial {ntp : Nat → Res Nat} (hn : NtpOk ntp) {cs : List TyCmd} {as : List Nat} {t : HC Node}
    (h : runTys ntp cs [] (HC.init _) = .ok (as, t)) (line : Nat → Int)
    {a b : Nat} {A B : Ty} {i j : Nat} (ha : as[i]? = some a) (hb : as[j]? = some b)
    (hA : (tysOf cs [])[i]? = some A) (hB : (tysOf cs [])[j]? = some B)
    (hline : ∀ d ∈ A.decls, ∀ e ∈ B.decls, line d = line e → d = e) :
    typeCompare line t.heap (t.heap.length + 1) a b = .ok 0 ↔ a = b := by
  obtain ⟨inv, r⟩ := runTys_spec hn cs TInv.init (ds := []) ⟨rfl, by simp⟩ h
  have ra := r.2 i a A ha hA
  have rb := r.2 j b B hb hB
  rw [typeCompare_spec inv.ordered _ a b A B (by have := ra.valid.2; omega) ra rb]
  simp only [Res.ok.injEq]
  constructor
  · intro h0
    cases cmpTy_eq line A B hline h0
    exact ra.inj inv.nodup rb
  · rintro rfl
    rw [ra.fun rb, cmpTy_refl]

/-- Non-vacuity: line numbers as in `exTys`. -/
example : ∃ t, runTys (fun _ => .nofuel) exTys [] (HC.init _) = .ok ([1, 2, 3, 4, 1, 3, 4, 5], t) ∧
    typeCompare (fun d => d) t.heap (t.heap.length + 1) 4 5 = .ok 1 ∧
    typeCompare (fun d => d) t.heap (t.heap.length + 1) 1 2 = .ok (-100) :=
  ⟨_, rfl, rfl, rfl⟩

/-- The full claim fails: two different types declared on one line (`type T; type S;`) compare as 0, since only
line numbers (not files or positions) are compared. -/
theorem C30_same_line_refuted : ∃ t, runTys (fun _ => .nofuel) [.use 100, .use 200] [] (HC.init _) = .ok ([1, 2], t) ∧
    typeCompare (fun _ => 7) t.heap (t.heap.length + 1) 1 2 = .ok 0 := ⟨_, rfl, rfl⟩

end Aps.Props
