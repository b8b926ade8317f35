import Verif.Proofs.FsaLive
set_option linter.unusedVariables false
/-!
# The automaton is always built, and its edges are between numbered nodes
-/
namespace Aps.Fsa
open Aps.Points (Prog Expr Pat Use Called)
open Aps.Points.Spec Aps.Fsa.Spec
open Aps.Dfa (Lab Edge addNode)

structure Pre (C : Env) (items : List Item) (B : Nat) : Prop where
  hd : C.st.done = true
  hp : Points.pass C.P C.st = .ok C.st
  bd : Points.Bd C.P B
  hok : Points.Ok C.P B C.st
  proper : Proper C.P
  num : C.num = count C.st items Num.zero
  listed : Listed C.P C.fieldsOf items

def InN (C : Env) (n : Nat) : Prop := 2 ≤ n ∧ n < C.num.next
def GoodE (C : Env) (e : Edge) : Prop := 4 ≤ e.src ∧ e.src < C.num.next ∧ InN C e.dst

/-- the call ends, its nodes and edges are good -/
def Fine (C : Env) (x : Res (List Nat × List Edge)) : Prop :=
  ∃ N E, x = .ok (N, E) ∧ (∀ n ∈ N, InN C n) ∧ ∀ e ∈ E, GoodE C e
def FineE (C : Env) (x : Res (List Edge)) : Prop := ∃ E, x = .ok E ∧ ∀ e ∈ E, GoodE C e

theorem goodRefs {C : Env} {q : Nat} (hq : 4 ≤ q ∧ q + 1 < C.num.next) (l : Lab) : ∀ {ns : List Nat}, (∀ n ∈ ns, InN C n) →
    ∀ e ∈ refEdges q l ns, GoodE C e
  | [], h, e, he => by cases he
  | n :: ns, h, e, he => by
    simp only [refEdges, List.mem_cons] at he
    have hn := h n (List.mem_cons_self ..)
    rcases he with rfl | rfl | he
    · exact ⟨Nat.le_succ_of_le hq.1, hq.2, hn⟩
    · exact ⟨hq.1, Nat.lt_of_succ_lt hq.2, hn⟩
    · exact goodRefs hq l (fun n h' => h n (List.mem_cons_of_mem _ h')) e he

section
variable {C : Env} {items : List Item} {B : Nat} (Q : Pre C items B)
include Q

theorem Pre.numOk : NumOk C.num := by rw [Q.num]; exact (count_ok items numOk_zero).1

theorem Pre.idO {d o : Nat} (h : o ∈ C.st.O d) : C.num.decl d ≠ 0 := by
  obtain ⟨k, hk⟩ := Q.listed.decls (.inl ⟨o, Q.hok.holds d o h⟩)
  rw [Q.num]
  exact (count_ok items numOk_zero).2.2.2.1 d k hk (.inl fun e => by rw [e] at h; cases h)

theorem Pre.idObj {o : Nat} (h : Obj C.P o) : C.num.decl o ≠ 0 := Q.idO (Q.hok.own o h)

theorem Pre.idU {d : Nat} {u : Use} (h : u ∈ C.st.U d) : C.num.decl d ≠ 0 := by
  obtain ⟨k, hk⟩ := Q.listed.decls (.inr ⟨u, Q.hok.used d u h⟩)
  rw [Q.num]
  exact (count_ok items numOk_zero).2.2.2.1 d k hk (.inr (.inl fun e => by rw [e] at h; cases h))

theorem Pre.idF {d : Nat} (h : .decl d true ∈ items) : C.num.decl d ≠ 0 := by
  rw [Q.num]
  exact (count_ok items numOk_zero).2.2.2.1 d true h (.inr (.inr rfl))

theorem Pre.idE {i : Nat} (h : .use i ∈ items) : C.num.expr i ≠ 0 := by
  rw [Q.num]
  exact (count_ok items numOk_zero).2.2.2.2.2 i h

theorem Pre.idUse {d : Nat} {u : Use} (h : u ∈ C.st.U d) : C.num.expr u.id ≠ 0 := by
  obtain ⟨y, -, hu⟩ := Q.hok.used d u h
  clear h
  cases hu with
  | read h => exact Q.idE (Q.listed.reads (.field h)).1
  | write h => exact Q.idE (Q.listed.writes (.field h)).1
  | readShared h h1 h2 => exact Q.idE (Q.listed.reads (.shared h h1 h2)).1
  | writeShared h h1 h2 => exact Q.idE (Q.listed.writes (.shared h h1 h2)).1

theorem Pre.declIn {d : Nat} (h : C.num.decl d ≠ 0) : 4 ≤ C.num.decl d ∧ C.num.decl d + 1 < C.num.next := by
  rcases Q.numOk.decl d with e | e
  · exact absurd e h
  · omega

theorem Pre.exprIn {d : Nat} (h : C.num.expr d ≠ 0) : 4 ≤ C.num.expr d ∧ C.num.expr d + 1 < C.num.next := by
  rcases Q.numOk.expr d with e | e
  · exact absurd e h
  · omega

theorem Pre.dflt : ∀ n ∈ [dfltNode], InN C n := by
  intro n hn
  have := Q.numOk.next
  simp only [List.mem_singleton] at hn
  subst hn
  unfold InN dfltNode
  omega

theorem Pre.cut {lt : Bool} {ns : List Nat} (h : ∀ n ∈ ns, InN C n) : ∀ n ∈ cutN lt ns, InN C n := by
  cases lt with
  | true => exact h
  | false => exact Q.dflt

theorem Pre.setOf {d b : Nat} (hb : b ≤ 1) : ∀ n ∈ Fsa.setOf (C.num.decl d + b), InN C n := by
  intro n hn
  have h4 := Q.numOk.next
  unfold Fsa.setOf dfltNode at hn
  rcases Q.numOk.decl d with e | e
  · rw [e] at hn
    split at hn
    · simp at hn; subst hn; unfold InN; omega
    · split at hn
      · simp at hn; subst hn; unfold InN; omega
      · omega
  · rw [if_neg (by omega), if_neg (by omega)] at hn
    simp only [List.mem_singleton] at hn
    unfold InN
    omega

theorem Pre.setOfE {d b : Nat} (hb : b ≤ 1) : ∀ n ∈ Fsa.setOf (C.num.expr d + b), InN C n := by
  intro n hn
  have h4 := Q.numOk.next
  unfold Fsa.setOf dfltNode at hn
  rcases Q.numOk.expr d with e | e
  · rw [e] at hn
    split at hn
    · simp at hn; subst hn; unfold InN; omega
    · split at hn
      · simp at hn; subst hn; unfold InN; omega
      · omega
  · rw [if_neg (by omega), if_neg (by omega)] at hn
    simp only [List.mem_singleton] at hn
    unfold InN
    omega

theorem Pre.oset {r : Option Nat} {e : Expr} {x : List Nat × Points.St} (he : ExprAt C.P r e)
    (h : Points.doOU C.P r e [] C.st = .ok x) : ∀ n ∈ osetNodes C x.1, InN C n := by
  intro n hn
  obtain ⟨o, ho, rfl⟩ := mem_osetNodes.1 hn
  have := (Points.doOU_ok Q.bd e [] C.st x.1 x.2 he Q.hok List.nodup_nil (by simp) h).2.2.2 o ho
  have := Q.declIn (Q.idObj this.1)
  unfold InN
  omega

end

mutual
theorem linkRhs_fine {C : Env} {items : List Item} {B : Nat} (Q : Pre C items B) {r : Option Nat} : ∀ (e : Expr) (ns : List Nat),
    ExprAt C.P r e → (∀ n ∈ ns, InN C n) → Fine C (linkRhs C r e ns)
  | .const, ns, he, hn => by simp only [linkRhs]; exact ⟨_, _, rfl, Q.dflt, by simp⟩
  | .other, ns, he, hn => by simp only [linkRhs]; exact ⟨_, _, rfl, by simp, by simp⟩
  | .rep lt e, ns, he, hn => by
    simp only [linkRhs]
    exact linkRhs_fine Q e _ he.rep (Q.cut hn)
  | .use i lt d, ns, he, hn => by
    simp only [linkRhs]
    by_cases hl : C.P.isLocal d = true
    · rw [if_pos hl]
      by_cases hs : C.P.isShared d = true ∧ r.isSome = true
      · rw [if_pos hs]
        obtain ⟨x, hx⟩ := Points.doOU_total Q.proper (.use i lt d) [] C.st he
        obtain ⟨si, rfl⟩ := Option.isSome_iff_exists.1 hs.2
        simp only [hx, Res.ok_bind]
        exact ⟨_, _, rfl, Q.oset he hx,
          goodRefs (Q.exprIn (Q.idE (Q.listed.reads (.shared he hl hs.1)).1)) _ (Q.cut hn)⟩
      · rw [if_neg hs]
        exact ⟨_, _, rfl, Q.setOf (b := 0) (by omega), by simp⟩
    · rw [if_neg hl]
      exact ⟨_, _, rfl, Q.dflt, by simp⟩
  | .attrRef lt a, ns, he, hn => by simp only [linkRhs]; exact ⟨_, _, rfl, Q.setOf (b := 0) (by omega), by simp⟩
  | .fieldRef i lt f w, ns, he, hn => by
    obtain ⟨N, E, h1, h2, h3⟩ := linkRhs_fine Q w _ he.obj (Q.setOfE (d := i) (b := 1) (by omega))
    obtain ⟨x, hx⟩ := Points.doOU_total Q.proper (.fieldRef i lt f w) [] C.st he
    simp only [linkRhs, h1, hx, Res.ok_bind]
    refine ⟨_, _, rfl, Q.oset he hx, fun e h => ?_⟩
    rcases List.mem_append.1 h with h | h
    · exact goodRefs (Q.exprIn (Q.idE (Q.listed.reads (.field he)).1)) _ (Q.cut hn) e h
    · exact h3 e h
  | .call lt g as, ns, he, hn => by
    obtain ⟨E, h1, h2⟩ := linkActuals_fine Q (C.P.formals g) as (fun a ha => he.arg ha) (Q.proper.actuals he)
    simp only [linkRhs, h1, Res.ok_bind]
    exact ⟨_, _, rfl, Q.setOf (b := 0) (by omega), h2⟩
  | .prim lt as, ns, he, hn => by
    simp only [linkRhs]
    exact linkPrims_fine Q as _ [] (fun a ha => he.prim ha) (Q.cut hn) (by simp)
theorem linkActuals_fine {C : Env} {items : List Item} {B : Nat} (Q : Pre C items B) {r : Option Nat} : ∀ (fs : List Nat)
    (as : List Expr), (∀ a ∈ as, ExprAt C.P r a) → as.length ≤ fs.length → FineE C (linkActuals C r fs as)
  | _, [], he, hl => by simp only [linkActuals]; exact ⟨_, rfl, by simp⟩
  | [], _ :: _, he, hl => by simp at hl
  | f :: fs, a :: as, he, hl => by
    obtain ⟨N, E, h1, h2, h3⟩ := linkRhs_fine Q a _ (he a (List.mem_cons_self ..)) (Q.setOf (d := f) (b := 1) (by omega))
    obtain ⟨E', h4, h5⟩ := linkActuals_fine Q fs as (fun a ha => he a (List.mem_cons_of_mem _ ha)) (by simpa using hl)
    simp only [linkActuals, h1, h4, Res.ok_bind]
    exact ⟨_, rfl, fun e h => (List.mem_append.1 h).elim (h3 e) (h5 e)⟩
theorem linkPrims_fine {C : Env} {items : List Item} {B : Nat} (Q : Pre C items B) {r : Option Nat} : ∀ (as : List Expr)
    (ns acc : List Nat), (∀ a ∈ as, ExprAt C.P r a) → (∀ n ∈ ns, InN C n) → (∀ n ∈ acc, InN C n) →
    Fine C (linkPrims C r as ns acc)
  | [], ns, acc, he, hn, ha => by simp only [linkPrims]; exact ⟨_, _, rfl, ha, by simp⟩
  | a :: as, ns, acc, he, hn, ha => by
    obtain ⟨N, E, h1, h2, h3⟩ := linkRhs_fine Q a ns (he a (List.mem_cons_self ..)) hn
    obtain ⟨N', E', h4, h5, h6⟩ := linkPrims_fine Q as ns (nunion acc N) (fun a ha => he a (List.mem_cons_of_mem _ ha)) hn
      (fun n h => (mem_nunion.1 h).elim (ha n) (h2 n))
    simp only [linkPrims, h1, h4, Res.ok_bind]
    exact ⟨_, _, rfl, h5, fun e h => (List.mem_append.1 h).elim (h3 e) (h6 e)⟩
end

section
variable {C : Env} {items : List Item} {B : Nat} (Q : Pre C items B)
include Q

theorem Pre.uset {d : Nat} {us : List Use} (h : ∀ u ∈ us, u ∈ C.st.U d ∨ C.num.expr u.id ≠ 0) : ∀ n ∈ usetNodes C us, InN C n := by
  intro n hn
  unfold usetNodes at hn
  rw [mem_foldNodes] at hn
  rcases hn with hn | ⟨u, hu, rfl⟩
  · cases hn
  · have := Q.exprIn (show C.num.expr u.id ≠ 0 from (h u hu).elim Q.idUse id)
    unfold InN
    omega

omit Q in
theorem addU_mem {d : Nat} {us : List Use} {st : Points.St} {x : Nat} {u : Use} (h : u ∈ (Points.addU d us st).U x) :
    u ∈ st.U x ∨ u ∈ us := by
  unfold Points.addU at h
  by_cases e : Points.union (st.U d) us = st.U d
  · simp only [if_pos e] at h; exact .inl h
  · simp only [if_neg e] at h
    by_cases hx : x = d
    · subst hx
      simp only [if_true] at h
      exact (Points.mem_union _ _ _).1 h
    · simp only [if_neg hx] at h; exact .inl h

omit Q in
/-- the uses that `doUO` finds for a shared variable -/
theorem doUO_shared {r : Nat} {a i d : Nat} {lt : Bool} {os : List Nat} (hi : C.num.expr i ≠ 0)
    (hl : C.P.isLocal d = true) (hs : C.P.isShared d = true) :
    ∃ us st', Points.doUO C.P (some r) a os C.st (.use i lt d) = .ok (us, st') ∧ ∀ u ∈ us, u ∈ C.st.U d ∨ C.num.expr u.id ≠ 0 := by
  simp only [Points.doUO, hl, hs, Bool.true_eq_false, if_false, if_true]
  refine ⟨_, _, rfl, fun u hu => ?_⟩
  rw [Points.addO_U] at hu
  rcases addU_mem hu with h | h
  · exact .inl h
  · simp only [List.mem_singleton] at h; subst h; exact .inr hi

theorem linkLhs_use {r : Option Nat} {a i : Nat} {lt : Bool} {d : Nat} {ns : List Nat} (hn : ∀ n ∈ ns, InN C n)
    (hi : C.P.isLocal d = true → C.P.isShared d = true → r.isSome = true → C.num.expr i ≠ 0) :
    Fine C (linkLhs C r a (.use i lt d) ns) := by
  simp only [linkLhs]
  by_cases hs : C.P.isLocal d = true ∧ C.P.isShared d = true ∧ r.isSome = true
  · rw [if_pos hs]
    obtain ⟨si, rfl⟩ := Option.isSome_iff_exists.1 hs.2.2
    have hi := hi hs.1 hs.2.1 rfl
    obtain ⟨us, st', h1, h2⟩ := doUO_shared (C := C) (r := si) (a := a) (lt := lt) (os := []) hi hs.1 hs.2.1
    simp only [h1, Res.ok_bind]
    exact ⟨_, _, rfl, Q.uset h2, goodRefs (Q.exprIn hi) _ (Q.cut hn)⟩
  · rw [if_neg hs]
    exact ⟨_, _, rfl, Q.setOf (b := 1) (by omega), by simp⟩

theorem linkLhs_field {r : Option Nat} {a i f : Nat} {lt : Bool} {w : Expr} {ns : List Nat} (hn : ∀ n ∈ ns, InN C n)
    (hi : C.num.expr i ≠ 0) (hw : ExprAt C.P r w) (ih : ∀ ns : List Nat, (∀ n ∈ ns, InN C n) → Fine C (linkLhs C r a w ns)) :
    Fine C (linkLhs C r a (.fieldRef i lt f w) ns) := by
  obtain ⟨N, E, h1, h2, h3⟩ := ih _ (Q.setOfE (d := i) (b := 1) (by omega))
  obtain ⟨x, hx⟩ := Points.doOU_total Q.proper w [⟨i, some f, some a⟩] C.st hw
  simp only [linkLhs, Points.doUO, h1, hx, Res.ok_bind]
  refine ⟨_, _, rfl, by simp [usetNodes], fun e h => ?_⟩
  rcases List.mem_append.1 h with h | h
  · exact goodRefs (Q.exprIn hi) _ (Q.cut hn) e h
  · exact h3 e h

end

theorem linkLhs_fine {C : Env} {items : List Item} {B : Nat} (Q : Pre C items B) {r : Option Nat} {a : Nat} : ∀ (e : Expr) (ns : List Nat),
    ExprAt C.P r e → (∀ n ∈ ns, InN C n) → Fine C (linkLhs C r a e ns)
  | .const, ns, he, hn => by simp only [linkLhs]; exact ⟨_, _, rfl, by simp, by simp⟩
  | .other, ns, he, hn => by simp only [linkLhs]; exact ⟨_, _, rfl, by simp, by simp⟩
  | .call _ _ _, ns, he, hn => by simp only [linkLhs]; exact ⟨_, _, rfl, by simp, by simp⟩
  | .prim _ _, ns, he, hn => by simp only [linkLhs]; exact ⟨_, _, rfl, by simp, by simp⟩
  | .rep lt e, ns, he, hn => by
    simp only [linkLhs]
    exact linkLhs_fine Q e _ he.rep (Q.cut hn)
  | .attrRef lt b, ns, he, hn => by simp only [linkLhs]; exact ⟨_, _, rfl, Q.setOf (b := 1) (by omega), by simp⟩
  | .use i lt d, ns, he, hn => linkLhs_use Q hn fun h1 h2 h3 => by
    obtain ⟨si, rfl⟩ := Option.isSome_iff_exists.1 h3
    exact Q.idE (Q.listed.reads (.shared he h1 h2)).1
  | .fieldRef i lt f w, ns, he, hn =>
    linkLhs_field Q hn (Q.idE (Q.listed.reads (.field he)).1) he.obj fun ns h => linkLhs_fine Q w ns he.obj h

section
variable {C : Env} {items : List Item} {B : Nat} (Q : Pre C items B)
include Q

/-- the left-hand side of an assignment -/
theorem linkLhs_assign {r : Option Nat} {a : Nat} {l e : Expr} (ha : At C.P (.assign a l e) r) {ns : List Nat}
    (hn : ∀ n ∈ ns, InN C n) : Fine C (linkLhs C r a l ns) := by
  rcases Q.proper.lhs ha with ⟨i, lt, x, rfl⟩ | ⟨lt, b, rfl⟩ | ⟨i, lt, f, w, rfl⟩
  · refine linkLhs_use Q hn fun h1 h2 h3 => ?_
    obtain ⟨si, rfl⟩ := Option.isSome_iff_exists.1 h3
    exact Q.idE (Q.listed.writes (.shared ha h1 h2)).1
  · simp only [linkLhs]; exact ⟨_, _, rfl, Q.setOf (b := 1) (by omega), by simp⟩
  · exact linkLhs_field Q hn (Q.idE (Q.listed.writes (.field ha)).1) (.lhsObj ha) fun ns h => linkLhs_fine Q w ns (.lhsObj ha) h

theorem linkE_fine {r : Option Nat} {e : Expr} {ns : List Nat} (he : ExprAt C.P r e) (hn : ∀ n ∈ ns, InN C n) :
    FineE C (linkE C r e ns) := by
  obtain ⟨N, E, h1, h2, h3⟩ := linkRhs_fine Q e ns he hn
  unfold linkE
  simp only [h1, Res.ok_bind]
  exact ⟨_, rfl, h3⟩

theorem linkO_fine {r : Option Nat} {o : Option Expr} (he : ∀ e, o = some e → ExprAt C.P r e) : FineE C (linkO C r o) := by
  cases o with
  | none => exact ⟨_, rfl, by simp⟩
  | some e => exact linkE_fine Q (he e rfl) Q.dflt

end

theorem linkEs_fine {C : Env} {items : List Item} {B : Nat} (Q : Pre C items B) {r : Option Nat} : ∀ (es : List Expr),
    (∀ e ∈ es, ExprAt C.P r e) → FineE C (linkEs C r es)
  | [], he => ⟨_, rfl, by simp⟩
  | e :: es, he => by
    obtain ⟨E, h1, h2⟩ := linkE_fine Q (he e (List.mem_cons_self ..)) Q.dflt
    obtain ⟨E', h3, h4⟩ := linkEs_fine Q es fun e h => he e (List.mem_cons_of_mem _ h)
    simp only [linkEs, h1, h3, Res.ok_bind]
    exact ⟨_, rfl, fun e h => (List.mem_append.1 h).elim (h2 e) (h4 e)⟩

mutual
theorem linkPat_fine {C : Env} {items : List Item} {B : Nat} (Q : Pre C items B) : ∀ (p : Pat), ∀ n ∈ linkPat C p, InN C n
  | .other => by simp [linkPat]
  | .none => by simp [linkPat]
  | .cond _ => by simp [linkPat]
  | .and _ p q => by
    simp only [linkPat]
    exact fun n h => (mem_nunion.1 h).elim (linkPat_fine Q p n) (linkPat_fine Q q n)
  | .var _ d => by
    simp only [linkPat]
    split
    · simp
    · exact Q.setOf (b := 1) (by omega)
  | .rest _ p => by simp only [linkPat]; exact linkPat_fine Q p
  | .call _ ps => by simp only [linkPat]; exact linkPats_fine Q ps [] (by simp)
theorem linkPats_fine {C : Env} {items : List Item} {B : Nat} (Q : Pre C items B) : ∀ (ps : List Pat) (acc : List Nat),
    (∀ n ∈ acc, InN C n) → ∀ n ∈ linkPats C ps acc, InN C n
  | [], acc, h => by simpa only [linkPats] using h
  | p :: ps, acc, h => by
    simp only [linkPats]
    exact linkPats_fine Q ps _ fun n hn => (mem_nunion.1 hn).elim (h n) (linkPat_fine Q p n)
end

section
variable {C : Env} {items : List Item} {B : Nat} (Q : Pre C items B)
include Q

theorem linkMatches_fine {r : Option Nat} {e : Expr} (he : ExprAt C.P r e) : ∀ (m : Points.Node), FineE C (linkMatches C r e m) := by
  intro m
  induction m with
  | mtch p b n _ ih =>
    obtain ⟨E, h1, h2⟩ := linkE_fine Q he (linkPat_fine Q p)
    obtain ⟨E', h3, h4⟩ := ih
    simp only [linkMatches, h1, h3, Res.ok_bind]
    exact ⟨_, rfl, fun e h => (List.mem_append.1 h).elim (h2 e) (h4 e)⟩
  | _ => exact ⟨_, rfl, by simp⟩

theorem objEdges_fine {d : Nat} {init : Option Expr} {r : Option Nat} (h : At C.P (.value d true init) r) :
    ∀ e ∈ objEdges C d, GoodE C e := by
  have hd := Q.declIn (Q.idObj (.inr ⟨_, _, h⟩))
  intro e he
  unfold objEdges at he
  rcases List.mem_append.1 he with he | he
  · obtain ⟨f, hf, rfl⟩ := List.mem_map.1 he
    have := Q.declIn (Q.idF (Q.listed.fields h hf))
    simp only [GoodE, InN]
    omega
  · obtain ⟨u, hu, rfl⟩ := List.mem_map.1 he
    have := Q.exprIn (Q.idUse hu)
    simp only [GoodE, InN]
    omega

theorem sharedEdges_fine {d : Nat} {k : Bool} {init : Option Expr} {r : Option Nat} (h : At C.P (.value d k init) r) :
    ∀ e ∈ sharedEdges C d, GoodE C e := by
  have hm := Q.declIn (Q.idObj (.inl rfl))
  intro e he
  unfold sharedEdges at he
  split at he
  · rename_i hs
    have := Q.declIn (Q.idF (Q.listed.shared h hs))
    simp only [List.mem_cons, List.not_mem_nil, or_false] at he
    rcases he with rfl | rfl | rfl <;> simp only [GoodE, InN, dfltNode] <;> omega
  · cases he

theorem valueEdges_fine {d : Nat} {k : Bool} {init : Option Expr} {r : Option Nat} (h : At C.P (.value d k init) r) :
    FineE C (valueEdges C r d k init) := by
  unfold valueEdges
  cases k with
  | true => exact ⟨_, rfl, objEdges_fine Q h⟩
  | false =>
    cases init with
    | none => exact ⟨_, rfl, by simp⟩
    | some e => exact linkE_fine Q (.init h) (Q.setOf (b := 1) (by omega))

theorem formalNodes_fine (d : Nat) : ∀ n ∈ formalNodes C d, InN C n := by
  unfold formalNodes
  split
  · exact Q.setOf (b := 1) (by omega)
  · simp

omit Q in
theorem FineE.seq {x y : Res (List Edge)} (h1 : FineE C x) (h2 : FineE C y) : FineE C (x >>= fun a => y >>= fun b => .ok (a ++ b)) := by
  obtain ⟨E, rfl, h1⟩ := h1
  obtain ⟨E', rfl, h2⟩ := h2
  exact ⟨_, rfl, fun e h => (List.mem_append.1 h).elim (h1 e) (h2 e)⟩

theorem buildNode_fine : ∀ (n : Points.Node) (r : Option Nat), At C.P n r → FineE C (buildNode C r n) := by
  intro n
  induction n with
  | skip => exact fun r h => ⟨_, rfl, by simp⟩
  | seq a b iha ihb =>
    intro r h
    obtain ⟨E1, h1, g1⟩ := iha r (Points.occurs_trans h (.seqL (.here _ _)))
    obtain ⟨E2, h2, g2⟩ := ihb r (Points.occurs_trans h (.seqR (.here _ _)))
    simp only [buildNode, h1, h2, Res.ok_bind]
    exact ⟨_, rfl, fun e h => (List.mem_append.1 h).elim (g1 e) (g2 e)⟩
  | value d k init =>
    intro r h
    obtain ⟨E1, h1, g1⟩ := valueEdges_fine Q h
    obtain ⟨E2, h2, g2⟩ := linkO_fine Q (o := init) (r := r) fun e he => .init (he ▸ h)
    simp only [buildNode, h1, h2, Res.ok_bind]
    refine ⟨_, rfl, fun e he => ?_⟩
    simp only [List.mem_append] at he
    rcases he with (he | he) | he
    exacts [g1 e he, sharedEdges_fine Q h e he, g2 e he]
  | attr d init =>
    intro r h
    simp only [buildNode]
    exact linkO_fine Q fun e he => .dflt (he ▸ h)
  | expr e =>
    intro r h
    simp only [buildNode]
    exact linkE_fine Q (.expr h) Q.dflt
  | assign a l e =>
    intro r h
    obtain ⟨M, E1, h1, m1, g1⟩ := linkLhs_assign Q h (ns := []) (by simp)
    obtain ⟨N, E2, h2, m2, g2⟩ := linkRhs_fine Q e M (.rhs h) m1
    obtain ⟨L, E3, h3, m3, g3⟩ := linkLhs_assign Q h m2
    simp only [buildNode, h1, h2, h3, Res.ok_bind]
    refine ⟨_, rfl, fun e he => ?_⟩
    simp only [List.mem_append] at he
    rcases he with (he | he) | he
    exacts [g1 e he, g2 e he, g3 e he]
  | ifs c t e iht ihe =>
    intro r h
    obtain ⟨E1, h1, g1⟩ := linkE_fine Q (.test h) Q.dflt
    obtain ⟨E2, h2, g2⟩ := iht r (Points.occurs_trans h (.ifT (.here _ _)))
    obtain ⟨E3, h3, g3⟩ := ihe r (Points.occurs_trans h (.ifE (.here _ _)))
    simp only [buildNode, h1, h2, h3, Res.ok_bind]
    refine ⟨_, rfl, fun e he => ?_⟩
    simp only [List.mem_append] at he
    rcases he with (he | he) | he
    exacts [g1 e he, g2 e he, g3 e he]
  | forIn f s b ih =>
    intro r h
    obtain ⟨E1, h1, g1⟩ := linkE_fine Q (.loop h) (formalNodes_fine Q f)
    obtain ⟨E2, h2, g2⟩ := linkE_fine Q (.loop h) Q.dflt
    obtain ⟨E3, h3, g3⟩ := ih r (Points.occurs_trans h (.loop (.here _ _)))
    simp only [buildNode, h1, h2, h3, Res.ok_bind]
    refine ⟨_, rfl, fun e he => ?_⟩
    simp only [List.mem_append] at he
    rcases he with (he | he) | he
    exacts [g1 e he, g2 e he, g3 e he]
  | cases e ms d ihm ihd =>
    intro r h
    obtain ⟨E1, h1, g1⟩ := linkE_fine Q (.case h) (ns := []) (by simp)
    obtain ⟨E2, h2, g2⟩ := linkMatches_fine Q (.case h) ms
    obtain ⟨E3, h3, g3⟩ := linkE_fine Q (.case h) Q.dflt
    obtain ⟨E4, h4, g4⟩ := ihm r (Points.occurs_trans h (.caseM (.here _ _)))
    obtain ⟨E5, h5, g5⟩ := ihd r (Points.occurs_trans h (.caseD (.here _ _)))
    simp only [buildNode, h1, h2, h3, h4, h5, Res.ok_bind]
    refine ⟨_, rfl, fun e he => ?_⟩
    simp only [List.mem_append] at he
    rcases he with (((he | he) | he) | he) | he
    exacts [g1 e he, g2 e he, g3 e he, g4 e he, g5 e he]
  | mtch p b n ihb ihn =>
    intro r h
    obtain ⟨E1, h1, g1⟩ := linkEs_fine Q p.conds fun e he => .condM h ((Points.mem_conds _ _).1 he)
    obtain ⟨E2, h2, g2⟩ := ihb r (Points.occurs_trans h (.matchB (.here _ _)))
    obtain ⟨E3, h3, g3⟩ := ihn r (Points.occurs_trans h (.matchN (.here _ _)))
    simp only [buildNode, h1, h2, h3, Res.ok_bind]
    refine ⟨_, rfl, fun e he => ?_⟩
    simp only [List.mem_append] at he
    rcases he with (he | he) | he
    exacts [g1 e he, g2 e he, g3 e he]
  | rule si ks p b ih =>
    intro r h
    obtain ⟨E1, h1, g1⟩ := linkEs_fine Q p.conds fun e he => .condR h ((Points.mem_conds _ _).1 he)
    obtain ⟨E2, h2, g2⟩ := ih (some si) (Points.occurs_trans h (.rule (.here _ _)))
    simp only [buildNode, h1, h2, Res.ok_bind]
    exact ⟨_, rfl, fun e h => (List.mem_append.1 h).elim (g1 e) (g2 e)⟩
  | func si b ih =>
    intro r h
    simp only [buildNode]
    exact ih (some si) (Points.occurs_trans h (.func (.here _ _)))

theorem declEdges_fine : ∀ (its : List Item), ∀ e ∈ declEdges C its, GoodE C e := by
  intro its
  induction its with
  | nil => intro e he; cases he
  | cons it its ih =>
    intro e he
    cases it with
    | use i => exact ih e he
    | decl d k =>
      simp only [declEdges, List.mem_append] at he
      rcases he with (he | he) | he
      · obtain ⟨o, ho, rfl⟩ := List.mem_map.1 he
        have h1 := Q.declIn (Q.idO ho)
        have h2 := Q.declIn (Q.idObj (Q.hok.holds d o ho).1)
        simp only [GoodE, InN]
        omega
      · obtain ⟨u, hu, rfl⟩ := List.mem_map.1 he
        have h1 := Q.declIn (Q.idU hu)
        have h2 := Q.exprIn (Q.idUse hu)
        simp only [GoodE, InN]
        omega
      · exact ih e he

theorem buildFsa_fine : FineE C (buildFsa C items) := by
  obtain ⟨E, h1, g1⟩ := buildNode_fine Q C.P.body none (.here _ _)
  simp only [buildFsa, h1, Res.ok_bind]
  refine ⟨_, rfl, fun e he => ?_⟩
  simp only [List.mem_append] at he
  rcases he with (he | he) | he
  · exact declEdges_fine Q items e he
  · obtain ⟨u, hu, rfl⟩ := List.mem_map.1 he
    have h1 := Q.declIn (Q.idObj (.inl rfl))
    have h2 := Q.exprIn (Q.idUse hu)
    simp only [GoodE, InN]
    omega
  · exact g1 e he

end
end Aps.Fsa
