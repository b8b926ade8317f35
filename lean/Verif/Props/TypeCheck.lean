import Verif.Proofs.TypeComplete
/-!
# C67, C68, C69: the type checker
-/
set_option linter.unusedVariables false
namespace Aps.Props
open Aps.TyCk

/-- C67. A program that passes the type check is well typed: there are types for the variables that have none written, and
replacements for the type parameters at each use that have the elements their signatures ask for, with which every
expression has the type its place asks for.

Partial: as the refutations below show, it is not true if types are written for the variables of loops or in patterns where the
checker does not look at them (`Plain`). -/
theorem C67_sound_partial {P : Prog} (hP : P.Params) {n : Nat} {b : Blk} {st : St} (hb : b.Plain P)
    (h : checkB P n b (start P) = .ok st) : ∃ Γ : Nat → Option Ty, BlkTy P Γ b :=
  check_sound hP hb h

/-- C67. What has been found of a type parameter (at a use) or a variable is never changed by what is checked after it. -/
theorem C67_found_once_partial {P : Prog} (hP : P.Params) {n : Nat} {b c : Blk} {st st' : St} (hb : b.Plain P) (hc : c.Plain P)
    (h : checkB P n b (start P) = .ok st) (h' : checkB P n c st = .ok st') :
    (∀ (u d : Nat) (t : Ty), look P (st.env u) d = some t → look P (st'.env u) d = some t) ∧
    (∀ (x : Nat) (s : Src), st.vars x = some s → st'.vars x = some s) := by
  have h0 := (checkB_ok hP b (start P) st hb (.refl _) h).1.le
  have h1 := (checkB_ok hP c st st' hc h0 h').1.le
  exact ⟨h1.look, h1.vars⟩

/-- C68. The comparison of types finds equal just the types that are the same after names of types and `remote` are taken away,
and always ends. -/
theorem C68_equality {P : Prog} (hP : P.Acyclic) (t s : Ty) : ∃ N : Nat, ∀ n ≥ N,
    (Same P t s → checkEq P n t s = .ok ()) ∧ (¬ Same P t s → checkEq P n t s = .stop) :=
  checkEq_decides hP t s

/-- C68. Whatever the fuel: if it ends without an error, they are the same. -/
theorem C68_equality_sound {P : Prog} {n : Nat} {t s : Ty} (h : checkEq P n t s = .ok ()) : Same P t s := checkEq_same h

/-- C69. A well-typed expression in which nothing is polymorphic passes the check: no false alarms.

Partial: only expressions, with no polymorphic uses and no loops. -/
theorem C69_no_false_alarm_partial {P : Prog} (hP : P.Acyclic) (h1 : P.OneSig) {st : St} {Γ : Nat → Option Ty}
    (hs : ∀ u : Nat, Mono P u → st.env u = []) (hk : Knows P st Γ) {e : Ex} {t : Ty} (he : e.Ground P false) (h : HasTy P Γ e t) :
    ∃ N : Nat, ∀ n ≥ N, check P n e t st = .ok st :=
  (complete_ex hP h1 hs hk h).1 he t (.refl t)

/-- C69. The type found for such an expression is the one it has. -/
theorem C69_infers_partial {P : Prog} (hP : P.Acyclic) (h1 : P.OneSig) {st : St} {Γ : Nat → Option Ty}
    (hs : ∀ u : Nat, Mono P u → st.env u = []) (hk : Knows P st Γ) {e : Ex} {t : Ty} (he : e.Ground P true) (h : HasTy P Γ e t) :
    ∃ s : Ty, Same P s t ∧ ∃ N : Nat, ∀ n ≥ N, infer P n e st = .ok (s, st) :=
  (complete_ex hP h1 hs hk h).2 he

/-! ## An example

```
type Ints := LIST[Integer]; type Numbers = Ints;
[T; S :: SEQUENCE[T]] begin
  function first(s : S) : T; function both(a, b : T) : Boolean; constructor two(a, b : T) : S;
end
```
-/

/-- 0 `Integer`, 1 `Boolean`, 2 `Ints`, 3 `Numbers`, 4 `T`, 5 `S` (parameters of 10), 6 the type parameter of a module -/
def c67type : Nat → TDecl
  | 0 => .nominal none
  | 1 => .nominal none
  | 2 => .nominal (some (.use 0))
  | 3 => .alias (.use 2)
  | 4 => .formal 10 0 []
  | 5 => .formal 10 1 [.use 4]
  | 6 => .formal 20 0 []
  | _ => .nominal none

/-- 0 `first`, 1 `both`, 2 and 3 `xs : Numbers`, 4 and 5 `n : Integer`, 6 the variable of a loop, 7 `two`, 8 and 9 variables of a pattern,
10 a constructor without actuals, 11 `x : M`, a module's type parameter, 12 `same[T](a, b : T, m : M)` -/
def c67bound : Nat → VDecl
  | 0 => .value (.func (.cons (.use 5) .nil) (.use 4)) [10]
  | 1 => .value (.func (.cons (.use 4) (.cons (.use 4) .nil)) (.use 1)) [10]
  | 2 => .value (.use 3) []
  | 3 => .value (.use 3) []
  | 4 => .value (.use 0) []
  | 5 => .value (.use 0) []
  | 6 => .formal 0 none
  | 7 => .value (.func (.cons (.use 4) (.cons (.use 4) .nil)) (.use 5)) [10]
  | 8 => .formal 1 none
  | 9 => .formal 2 none
  | 10 => .value (.func .nil (.use 0)) []
  | 11 => .value (.use 6) []
  | 12 => .value (.func (.cons (.use 6) (.cons (.use 4) .nil)) (.use 1)) [10]
  | _ => .value (.use 0) []

def c67prog : Prog where
  type := c67type
  arity _ := 2
  bound := c67bound
  lit _ := .use 0
  bool := .use 1

/-- ```
n : Integer := first(xs);
for x in xs begin n := x; end
case xs begin match two(?a,?b) begin if both(a,b) then n := a; endif end end
``` -/
def c67block : Blk :=
  .cons (.value (.use 0) (.simple (.call 0 (.cons (.use 2) .nil))))
  (.cons (.forIn 0 none (.use 3) (.cons (.assign (.use 4) (.use 6)) .nil))
  (.cons (.cases (.use 2)
    (.cons (.call 7 (.cons (.var 1 none) (.cons (.var 2 none) .nil)))
      (.cons (.ifs (.call 1 (.cons (.use 8) (.cons (.use 9) .nil))) (.cons (.assign (.use 5) (.use 8)) .nil) .nil) .nil) .nil) .nil)
  .nil))

theorem c67params : c67prog.Params := by
  intro d d' p i es es' h h'
  simp only [c67prog, c67type] at h h'
  split at h <;> cases h <;> split at h' <;> cases h' <;> rfl

theorem c67plain : c67block.Plain c67prog := by
  simp [c67block, Blk.Plain, Stmt.Plain, Mats.Plain, Pat.Plain, Pats.Plain, Ex.Plain, Exs.Plain, Dflt.Plain]

theorem c67accepted : ∃ st : St, checkB c67prog 20 c67block (start c67prog) = .ok st := by
  have : (match checkB c67prog 20 c67block (start c67prog) with | .ok _ => true | _ => false) = true := by decide +kernel
  split at this
  · rename_i st h; exact ⟨st, h⟩
  · cases this

example : ∃ Γ : Nat → Option Ty, BlkTy c67prog Γ c67block := by
  obtain ⟨st, h⟩ := c67accepted
  exact C67_sound_partial c67params c67plain h

/-- `both(n, xs)` is found wrong -/
example : (match checkB c67prog 20 (.cons (.ifs (.call 1 (.cons (.use 4) (.cons (.use 2) .nil))) .nil .nil) .nil) (start c67prog) with
    | .stop => true | _ => false) = true := by decide +kernel

theorem c67acyclic : c67prog.Acyclic := by
  refine ⟨fun d => d, ?_⟩
  intro d t h e he
  simp only [c67prog, c67type] at h
  split at h <;> cases h
  simp [Ty.names] at he
  subst he
  show (2 : Nat) < 3
  omega

theorem c67onesig : c67prog.OneSig := by
  intro d p i es h
  simp only [c67prog, c67type] at h
  split at h <;> cases h <;> simp

example : ∃ N : Nat, ∀ n ≥ N, checkEq c67prog n (.func (.cons (.remote (.use 3)) .nil) (.use 0)) (.func (.cons (.use 2) .nil) (.use 0))
    = .ok () := by
  obtain ⟨N, h⟩ := C68_equality c67acyclic (.func (.cons (.remote (.use 3)) .nil) (.use 0)) (.func (.cons (.use 2) .nil) (.use 0))
  refine ⟨N, fun n hn => (h n hn).1 ?_⟩
  exact .func (.cons (.trans (.remote _) (.alias rfl)) .nil) (.refl _)

theorem c67knows : Knows c67prog (start c67prog) (fun _ => none) := by intro x t h; cases h

/-- `append(xs, {})`, at type `Ints` -/
example : ∃ N : Nat, ∀ n ≥ N, check c67prog n (.append (.use 2) .empty) (.use 2) (start c67prog) = .ok (start c67prog) := by
  refine C69_no_false_alarm_partial c67acyclic c67onesig (fun u h => mono_env h (.refl _)) c67knows ⟨?_, rfl⟩ (.append ?_ (.empty _))
  · intro t polys h
    simp only [c67prog, c67bound] at h
    cases h; rfl
  · exact .same (.use (σ := fun _ => none) (.value rfl) (by intro d p i es t _ hp; simp at hp) (replace_nil _ _)) (.alias rfl)

/-! ## What is not checked -/

theorem use_value {P : Prog} {Γ : Nat → Option Ty} {u : Nat} {s : Ty} (hb : P.bound u = .value s []) :
    ∀ {e : Ex} {t : Ty}, HasTy P Γ e t → e = .use u → Same P s t
  | _, _, .use hd _ hr, he => by
    cases he
    cases hd with
    | value h => rw [hb] at h; cases h; rw [replace_nil_eq hr]; exact .refl _
    | formal h => rw [hb] at h; cases h
    | var h _ => rw [hb] at h; cases h
  | _, _, .same h q, he => .trans (use_value hb h he) q

theorem c67apart : ¬ Same c67prog (.use 1) (.use 0) := by
  intro h
  have n0 : Norm c67prog (.use 0) (.use 0) := .use (by intro t h; cases h)
  have n1 : Norm c67prog (.use 1) (.use 1) := .use (by intro t h; cases h)
  have := norm_det ((same_norm h _).1 n1) n0
  cases this

/-- C67. The type written for the variable of a loop is not compared with the type of the elements:
`for x : Boolean in xs begin end` passes although `xs` has elements of type `Integer`. -/
theorem C67_loop_variable_refuted : ∃ (P : Prog) (b : Blk) (st : St), P.Params ∧ checkB P 20 b (start P) = .ok st ∧
    ¬ ∃ Γ : Nat → Option Ty, BlkTy P Γ b := by
  have : (match checkB c67prog 20 (.cons (.forIn 3 (some (.use 1)) (.use 2) .nil) .nil) (start c67prog) with
    | .ok _ => true | _ => false) = true := by decide +kernel
  split at this
  · rename_i st h
    refine ⟨c67prog, _, st, c67params, h, ?_⟩
    rintro ⟨Γ, hb⟩
    cases hb with
    | cons hs _ =>
      cases hs with
      | forIn he h1 _ _ =>
        obtain ⟨el, hel, hsm⟩ := h1 _ rfl
        have hq := use_value (s := .use 3) rfl he rfl
        have h3 := (same_elem hq el).2 hel
        have h2 : Elem c67prog (.use 2) el := (same_elem (Same.alias (P := c67prog) (d := 3) (t := .use 2) rfl) el).1 h3
        cases h2 with
        | inst h' =>
          have : el = .use 0 := by
            simp only [c67prog, c67type] at h'
            cases h'; rfl
          subst this
          exact c67apart hsm
        | sig h' _ => simp only [c67prog, c67type] at h'; cases h'
        | «alias» h' _ => simp only [c67prog, c67type] at h'; cases h'
  · cases this

theorem typed_pat {P : Prog} {Γ : Nat → Option Ty} {q : Pat} {s : Ty} :
    ∀ {p : Pat} {t : Ty}, PatTy P Γ p t → p = .typed q s → Same P s t
  | _, _, .typed _, he => by cases he; exact .refl _
  | _, _, .same h k, he => .trans (typed_pat h he) k

/-- C67. A type written for a pattern is not compared with the type of what is matched:
`case n begin match (?x) : Boolean begin end end` passes although `n : Integer`. -/
theorem C67_typed_pattern_refuted : ∃ (P : Prog) (b : Blk) (st : St), P.Params ∧ checkB P 20 b (start P) = .ok st ∧
    ¬ ∃ Γ : Nat → Option Ty, BlkTy P Γ b := by
  have : (match checkB c67prog 20 (.cons (.cases (.use 4) (.cons (.typed (.var 3 none) (.use 1)) .nil .nil) .nil) .nil)
    (start c67prog) with | .ok _ => true | _ => false) = true := by decide +kernel
  split at this
  · rename_i st h
    refine ⟨c67prog, _, st, c67params, h, ?_⟩
    rintro ⟨Γ, hb⟩
    cases hb with
    | cons hs _ =>
      cases hs with
      | cases he hm _ =>
        have hq := use_value (s := .use 0) rfl he rfl
        cases hm with
        | cons hp _ _ => exact c67apart (.trans (typed_pat hp rfl) (.symm hq))
  · cases this

theorem and_pat {P : Prog} {Γ : Nat → Option Ty} {q r : Pat} :
    ∀ {p : Pat} {t : Ty}, PatTy P Γ p t → p = .and q r → PatTy P Γ q t ∧ PatTy P Γ r t
  | _, _, .and h k, he => by cases he; exact ⟨h, k⟩
  | _, _, .same h k, he => ⟨.same (and_pat h he).1 k, .same (and_pat h he).2 k⟩
theorem tvar_pat {P : Prog} {Γ : Nat → Option Ty} {x : Nat} {s : Ty} :
    ∀ {p : Pat} {t : Ty}, PatTy P Γ p t → p = .var x (some s) → Same P s t
  | _, _, .tvar _ _, he => by cases he; exact .refl _
  | _, _, .var _, he => by cases he
  | _, _, .same h k, he => .trans (tvar_pat h he) k
theorem call_pat {P : Prog} {Γ : Nat → Option Ty} {u : Nat} {r : Ty} {as : Pats}
    (hb : P.bound u = .value (.func .nil r) []) (hf : ∀ gs s, Same P (.func .nil r) (.func gs s) → Same P r s) :
    ∀ {p : Pat} {t : Ty}, PatTy P Γ p t → p = .call u as → Same P r t
  | _, _, .call hd _ hq _ hr, he => by
    cases he
    cases hd with
    | value h => rw [hb] at h; cases h; rw [replace_nil_eq hr]; exact hf _ _ hq
    | formal h => rw [hb] at h; cases h
    | var h _ => rw [hb] at h; cases h
  | _, _, .same h k, he => .trans (call_pat hb hf h he) k

/-- C67. `match c() = ?x : Boolean begin end` passes although `c()` is of type `Integer`: where the type of a pattern has to be found,
none is found for a variable with a type, and no type is equal to every type. -/
theorem C67_named_pattern_refuted : ∃ (P : Prog) (b : Blk) (st : St), P.Params ∧ checkB P 20 b (start P) = .ok st ∧
    ¬ ∃ Γ : Nat → Option Ty, BlkTy P Γ b := by
  have : (match checkB c67prog 20 (.cons (.top (.and (.call 10 .nil) (.var 3 (some (.use 1)))) .nil) .nil)
    (start c67prog) with | .ok _ => true | _ => false) = true := by decide +kernel
  split at this
  · rename_i st h
    refine ⟨c67prog, _, st, c67params, h, ?_⟩
    rintro ⟨Γ, hb⟩
    cases hb with
    | cons hs _ =>
      cases hs with
      | top hp _ =>
        obtain ⟨h1, h2⟩ := and_pat hp rfl
        have k1 := tvar_pat h2 rfl
        have k2 := call_pat (r := .use 0) rfl (by
          intro gs s hq
          obtain ⟨v, hv⟩ := norm_all c67acyclic (.func gs s)
          have hv' := (same_norm hq v).2 hv
          cases hv with
          | func a b =>
            cases hv' with
            | func a' b' => exact .trans (norm_same b') (.symm (norm_same b))) h1 rfl
        exact c67apart (.trans k1 (.symm k2))
  · cases this

/-- C67. The checker uses a null pointer: a polymorphic function in a module that has a parameter of a type parameter of the module
(here `same[T](m : M, a : T)`), when the actual is looked at before `T` is known. The call is well typed. -/
theorem C67_crash_refuted : ∃ (P : Prog) (b : Blk) (Γ : Nat → Option Ty), P.Params ∧ BlkTy P Γ b ∧ checkB P 20 b (start P) = .ub := by
  refine ⟨c67prog, .cons (.ifs (.call 12 (.cons (.use 11) (.cons (.use 4) .nil))) .nil .nil) .nil, fun _ => none, c67params, ?_, ?_⟩
  · have hu : ∀ (u : Nat) (t : Ty), c67bound u = .value t [] → HasTy c67prog (fun _ => none) (.use u) t := by
      intro u t h
      exact .use (σ := fun _ => none) (.value h) (by intro d p i es t _ hp; simp at hp) (replace_nil _ _)
    refine .cons (.ifs ?_ .nil .nil) .nil
    refine .call (polys := [10]) (σ := fun d => if d = 4 then some (.use 0) else none) (.value rfl) ?_ (.refl _)
      (.cons (.use ?_) (hu 11 _ rfl) (.cons (.param ⟨10, 0, [], rfl, by simp⟩ rfl) (hu 4 _ rfl) .nil)) (.use ?_)
    · intro d p i es t hd hp hs e he
      by_cases h4 : d = 4
      · subst h4
        simp only [c67prog, c67type] at hd
        cases hd
        simp at he
      · simp [h4] at hs
    · rintro ⟨p, i, es, hd, hp⟩
      simp only [c67prog, c67type] at hd
      cases hd
      simp at hp
    · rintro ⟨p, i, es, hd, hp⟩
      simp only [c67prog, c67type] at hd
      cases hd
  · have : (match checkB c67prog 20 (.cons (.ifs (.call 12 (.cons (.use 11) (.cons (.use 4) .nil))) .nil .nil) .nil) (start c67prog)
      with | .ub => true | _ => false) = true := by decide +kernel
    split at this
    · assumption
    · cases this

/-- C69. A guard in a pattern is reported although it is right: in `?x if both(x,x)` the condition is looked at before the variable has a type. -/
theorem C69_guard_refuted : ∃ (P : Prog) (b : Blk) (Γ : Nat → Option Ty), P.Params ∧ BlkTy P Γ b ∧ ∀ n : Nat, ∀ st : St,
    checkB P n b (start P) ≠ .ok st := by
  refine ⟨c67prog, .cons (.cases (.use 4) (.cons (.and (.var 1 none) (.cond (.call 1 (.cons (.use 8) (.cons (.use 4) .nil)))))
    .nil .nil) .nil) .nil, fun x => if x = 1 then some (.use 0) else none, c67params, ?_, ?_⟩
  · have hu : ∀ (u : Nat) (t : Ty), c67bound u = .value t [] → HasTy c67prog (fun x => if x = 1 then some (.use 0) else none) (.use u) t := by
      intro u t h
      exact .use (σ := fun _ => none) (.value h) (by intro d p i es t _ hp; simp at hp) (replace_nil _ _)
    refine .cons (.cases (hu 4 _ rfl) (.cons (.and (.var rfl) (.cond _ ?_)) .nil (.nil _)) .nil) .nil
    refine .call (polys := [10]) (σ := fun d => if d = 4 then some (.use 0) else none) (.value rfl) ?_ (.refl _)
      (.cons (.param ⟨10, 0, [], rfl, by simp⟩ rfl) ?_ (.cons (.param ⟨10, 0, [], rfl, by simp⟩ rfl) (hu 4 _ rfl) .nil)) (.use ?_)
    · intro d p i es t hd hp hs e he
      by_cases h4 : d = 4
      · subst h4
        simp only [c67prog, c67type] at hd
        cases hd
        simp at he
      · simp [h4] at hs
    · exact .use (σ := fun _ => none) (.var rfl rfl) (by intro d p i es t _ hp; simp at hp) (replace_nil _ _)
    · rintro ⟨p, i, es, hd, hp⟩
      simp only [c67prog, c67type] at hd
      cases hd
  · intro n st h
    simp only [checkB, checkS] at h
    obtain ⟨st1, h1, h⟩ := Res.bind_eq_ok.1 h
    obtain ⟨x, hx, h1⟩ := Res.bind_eq_ok.1 h1
    have hx2 : x.2.vars 1 = none := by
      simp only [infer] at hx
      obtain ⟨_, _, hx⟩ := Res.bind_eq_ok.1 hx
      obtain ⟨_, _, hx⟩ := Res.bind_eq_ok.1 hx
      cases hx; rfl
    obtain ⟨st2, h2, h1⟩ := Res.bind_eq_ok.1 h1
    simp only [checkM] at h2
    obtain ⟨st3, h3, h2⟩ := Res.bind_eq_ok.1 h2
    simp only [checkP] at h3
    obtain ⟨st4, h4, h3⟩ := Res.bind_eq_ok.1 h3
    simp only [check] at h4
    obtain ⟨s, hs, h4⟩ := Res.bind_eq_ok.1 h4
    obtain ⟨b, hb, h4⟩ := Res.bind_eq_ok.1 h4
    obtain ⟨f, hf, h4⟩ := Res.bind_eq_ok.1 h4
    obtain ⟨st5, h5, h4⟩ := Res.bind_eq_ok.1 h4
    have hs5 : st5.vars = x.2.vars := by
      have hse : s = .func (.cons (.use 4) (.cons (.use 4) .nil)) (.use 1) := by
        simp only [declTy, c67prog, c67bound] at hs
        cases hs; rfl
      subst hse
      cases n with
      | zero => simp [base] at hb
      | succ n =>
        simp only [base] at hb
        cases hb
        simp only [asFunc] at hf
        cases hf
        simp only [unify] at h5
        split at h5
        · obtain ⟨_, _, h5⟩ := Res.bind_eq_ok.1 h5
          obtain ⟨_, _, h5⟩ := Res.bind_eq_ok.1 h5
          cases h5; rfl
        · simp only [c67prog, c67type] at h5
          obtain ⟨_, _, h5⟩ := Res.bind_eq_ok.1 h5
          cases h5; rfl
    have hno : ∀ m, declTy c67prog m 8 st5 = .stop := by
      intro m
      simp [declTy, c67prog, c67bound, formalTy, hs5, hx2]
    simp only [args] at h4
    split at h4
    · cases h4
    · split at h4
      · obtain ⟨_, _, h4⟩ := Res.bind_eq_ok.1 h4
        simp [check, hno] at h4
      · simp [infer, hno] at h4

end Aps.Props
