import Verif.Proofs.Func
/-!
# C101: functions

`compile` is what the generators print for a function, `callTarget` a call of it; `depth` nests calls.
-/
namespace Aps.Props
open Aps.DynGen Aps.Func
variable {V : Type}

/-- A function of the program `d` compiled to `t` without an error: its formals are distinct, its cases are as C47 asks, and if it
has no body its default is no composite. -/
structure FuncOk (lang : Lang) (pr : Printer V) (P : Pat V → Prop) (d : Decl V) (t : Target V (List (Code V))) : Prop where
  formals : d.formals.Nodup
  done : compile lang pr d = .ok (t.text, false)
  pats : patsB P d.body
  covered : ∀ r ∈ d.results, covered lang r.id d.body
  simple : d.body = [] → ∀ r ∈ d.results, ∀ e, r.deft ≠ .composite e

/-- The printed text has one reading only as far as calls are concerned: a call gives what the program says. -/
theorem func_call {W : World V} {lang : Lang} {native : Pat V → V → Env V → Option (Env V)} {pr : Printer V} {P : Pat V → Prop}
    (R : ∀ c, Right { W with combine := c } lang native pr P) {d : Decl V} {t : Target V (List (Code V))}
    (h : FuncOk lang pr P d t) (anode : V) (nat : List V → Res V) (ρ : Env V) (args : List V) :
    callTarget W lang native anode nat d.formals t ρ args = d.means W anode nat ρ args := by
  obtain ⟨hn, hd, hp, hc, hs⟩ := h
  unfold callTarget
  rw [bindArgs_eq _ _ _ hn]
  simp only [start_eq]
  cases hb : d.body with
  | nil =>
    simp only [compile, hb, List.isEmpty_nil, if_true] at hd
    cases hr : d.results with
    | nil =>
      simp only [hr, List.head?_nil, Res.ok.injEq, Prod.mk.injEq] at hd
      cases t with
      | whole r cs => simp [Target.text] at hd
      | simple e => simp [Target.text] at hd
      | native => simp [Decl.means, Decl.defined, hb, hr]
    | cons r rs =>
      simp only [hr, List.head?_cons] at hd
      cases hf : r.deft with
      | none =>
        simp only [hf, Res.ok.injEq, Prod.mk.injEq, decide_eq_false_iff_not] at hd
        have hrs : rs = [] := by
          cases rs with
          | nil => rfl
          | cons _ _ => simp at hd
        cases t with
        | whole r cs => simp [Target.text] at hd
        | simple e => simp [Target.text] at hd
        | native => simp [Decl.means, Decl.defined, hb, hr, hrs, Result.given, hf]
      | simple e =>
        simp only [hf, Res.ok.injEq, Prod.mk.injEq, decide_eq_false_iff_not] at hd
        have hrs : rs = [] := by
          cases rs with
          | nil => rfl
          | cons _ _ => simp at hd
        cases t with
        | whole r cs => simp [Target.text] at hd
        | native => simp [Target.text] at hd
        | simple e' =>
          simp only [Target.text, Target.simple.injEq] at hd
          obtain ⟨rfl, -⟩ := hd
          have hg : d.defined = true := by simp [Decl.defined, hb, hr, Result.given, hf]
          rw [Decl.means, if_pos hg]
          simp only [Decl.value, hr, hrs, hb, active, DynGen.value, Result.dflt, hf]
          cases r.col <;> rfl
      | composite e => exact absurd hf (hs hb r (by rw [hr]; exact List.mem_cons_self) e)
  | cons s ss =>
    have he : d.body.isEmpty = false := by rw [hb]; rfl
    have hg : d.defined = true := by simp [Decl.defined, he]
    rw [Decl.means, if_pos hg]
    simp only [compile, he, Bool.false_eq_true, if_false] at hd
    cases hr : d.results with
    | nil => simp [hr] at hd
    | cons r rs =>
      simp only [hr, List.head?_cons, Res.ok.injEq, Prod.mk.injEq, Bool.or_eq_false_iff, decide_eq_false_iff_not] at hd
      obtain ⟨h1, h2, h3⟩ := hd
      have hrs : rs = [] := by
        cases rs with
        | nil => rfl
        | cons _ _ => simp at h2
      subst hrs
      cases t with
      | simple e => simp [Target.text] at h1
      | native => simp [Target.text] at h1
      | whole r' cs =>
        simp only [Target.text, Target.whole.injEq] at h1
        obtain ⟨rfl, h1⟩ := h1
        simp only [Decl.value, hr]
        refine Locals.block_value (R r.combine) hp (hc r (by rw [hr]; exact List.mem_cons_self)) h3 h1 r.col anode _ _ ?_
        intro h
        unfold Result.dflt
        cases r.deft <;> simp [h]

/-- Calls that agree one level deep agree at any depth. -/
theorem depth_same {c c' : Interp V → Nat → List V → Res V} (h : ∀ φ f as, c φ f as = c' φ f as) (bot : Interp V) :
    ∀ n f as, depth c bot n f as = depth c' bot n f as
  | 0, _, _ => rfl
  | n + 1, f, as => by
    have ih := depth_same h bot n
    simp only [depth, h, ih]

/-- **C101** (C++).  A program of functions, which may call each other and themselves: nested to any depth, a call of the generated
function returns what the program says. -/
theorem C101_cpp_partial (W : World V) (ar : Nat → Nat) (L : Lawful W ar) (native : Pat V → V → Env V → Option (Env V))
    (anode : V) (nat : Nat → List V → Res V) (ρ : Env V) (prog : Interp V → Nat → Decl V)
    (code : Interp V → Nat → Target V (List (Code V)))
    (h : ∀ φ f, FuncOk .cpp (cppPrinter ar) (patOk ar) (prog φ f) (code φ f)) (bot : Interp V) (n f : Nat) (args : List V) :
    depth (fun φ f as => callTarget W .cpp native anode (nat f) (prog φ f).formals (code φ f) ρ as) bot n f args =
      depth (fun φ f as => (prog φ f).means W anode (nat f) ρ as) bot n f args :=
  depth_same (fun φ f as => func_call
    (fun k p c b h hk n ρ => cppArm (W := { W with combine := k }) ⟨L.arity, L.seq⟩ hk h n ρ) (h φ f) anode (nat f) ρ as)
    bot n f args

/-- **C101** (Scala).  The same.  (Patterns are taken to mean the same, as in C47_scala; see C93.) -/
theorem C101_scala_partial (W : World V) (pr : Printer V)
    (anode : V) (nat : Nat → List V → Res V) (ρ : Env V) (prog : Interp V → Nat → Decl V)
    (code : Interp V → Nat → Target V (List (Code V)))
    (h : ∀ φ f, FuncOk .scala pr (fun _ => True) (prog φ f) (code φ f)) (bot : Interp V) (n f : Nat) (args : List V) :
    depth (fun φ f as => callTarget W .scala (pmatch W) anode (nat f) (prog φ f).formals (code φ f) ρ as) bot n f args =
      depth (fun φ f as => (prog φ f).means W anode (nat f) ρ as) bot n f args :=
  depth_same (fun φ f as => func_call (W := W) (lang := .scala) (native := pmatch W) (pr := pr)
    (fun c p _ b _ _ n ρ => congrArg Res.ok (pmatch_combine W c p n ρ).symm)
    (h φ f) anode (nat f) ρ as) bot n f args

/-- **C101.** A function with several results is never compiled without an error. -/
theorem C101_results (lang : Lang) (pr : Printer V) (d : Decl V) (t : Target V (List (Tok V))) (e : Bool)
    (h : compile lang pr d = .ok (t, e)) (hm : d.results.length > 1) : e = true := by
  have hm' : decide (d.results.length > 1) = true := by simpa using hm
  simp only [compile, hm'] at h
  split at h
  · split at h
    · split at h <;> cases h <;> rfl
    · cases h; rfl
  · split at h
    · cases h; rfl
    · cases h

/-- If a function has no body, and its result is a collection with an initial value and a combiner, nothing is printed: the call
is left to native code, which does not exist. -/
theorem C101_collection_refuted (W : World V) (lang : Lang) (pr : Printer V) (anode : V) (nat : List V → Res V) (ρ : Env V) (v : V)
    (comb : V → V → V) : ∃ d : Decl V, d.body = [] ∧ compile lang pr d = .ok (.native, false) ∧
      d.means W anode nat ρ [] = .ok v :=
  ⟨⟨[], [⟨0, true, .composite fun _ => v, v, comb⟩], []⟩, rfl, rfl, rfl⟩

/-- A function without a result that has a body (all functions may be declared so) takes the generator through a null pointer. -/
theorem C101_result_refuted (lang : Lang) (pr : Printer V) (e : Ex V) : ∃ d : Decl V, d.results = [] ∧
    compile lang pr d = .ub :=
  ⟨⟨[], [], [.decl 0 e false]⟩, rfl, rfl⟩

/-! ### An example -/

/-- Numbers. -/
def fnW : World Nat where
  typeOf := fun _ => 0
  consOf := fun _ => 0
  fields := fun _ => []
  elems := fun _ => []
  mkseq := fun _ => 0
  same := fun a b => a == b
  truth := fun n => n != 0
  combine := fun a _ => a

/-- `function fact(n : Integer) : Integer begin if n then result := n * fact(n-1); else result := 1; endif; end`, and
`function next(n : Integer) : Integer := n + 1`. -/
def fnProg (φ : Interp Nat) (f : Nat) : Decl Nat :=
  if f = 0 then ⟨[0], [⟨9, false, .none, 0, fun a _ => a⟩],
    [.ite (fun ρ => ρ 0) [.assign (.value 9) fun ρ => ρ 0 * φ 0 [ρ 0 - 1]] [.assign (.value 9) fun _ => 1]]⟩
  else ⟨[0], [⟨9, false, .simple fun ρ => ρ 0 + 1, 0, fun a _ => a⟩], []⟩

/-- Its code. -/
def fnCode (φ : Interp Nat) (f : Nat) : Target Nat (List (Code Nat)) :=
  if f = 0 then .whole ⟨9, false, .none, 0, fun a _ => a⟩
    [.ifb (fun ρ => ρ 0) [.asg none fun ρ => ρ 0 * φ 0 [ρ 0 - 1]] [.asg none fun _ => 1]]
  else .simple fun ρ => ρ 0 + 1

theorem fnOk (lang : Lang) (pr : Printer Nat) (P : Pat Nat → Prop) (φ : Interp Nat) (f : Nat) :
    FuncOk lang pr P (fnProg φ f) (fnCode φ f) := by
  by_cases hf : f = 0
  · subst hf
    exact ⟨List.nodup_singleton 0, rfl, ⟨⟨⟨trivial, trivial⟩, ⟨trivial, trivial⟩⟩, trivial⟩, fun r _ => ⟨⟨⟨trivial, trivial⟩, ⟨trivial, trivial⟩⟩, trivial⟩,
      fun h => by cases h⟩
  · have e1 : fnProg φ f = ⟨[0], [⟨9, false, .simple fun ρ => ρ 0 + 1, 0, fun a _ => a⟩], []⟩ := if_neg hf
    have e2 : fnCode φ f = .simple fun ρ => ρ 0 + 1 := if_neg hf
    rw [e1, e2]
    refine ⟨by simp, rfl, trivial, fun r _ => trivial, ?_⟩
    intro _ r hr e h
    simp only [List.mem_singleton] at hr
    subst hr
    cases h

/-- The generated functions meet the hypotheses of C101, and `fact` gives the factorial, to any depth. -/
example : (∀ φ f, FuncOk .cpp (cppPrinter fun _ => 0) (patOk fun _ => 0) (fnProg φ f) (fnCode φ f)) ∧
    (∀ φ f, FuncOk .scala (cppPrinter fun _ => 0) (fun _ => True) (fnProg φ f) (fnCode φ f)) ∧
    ∀ (bot : Interp Nat) (k n : Nat), k < n →
      depth (fun φ f as => (fnProg φ f).means fnW 0 (fun _ => .stop) (fun _ => 0) as) bot n 0 [k] =
        .ok (Nat.rec (motive := fun _ => Nat) 1 (fun i x => (i + 1) * x) k) := by
  refine ⟨fnOk _ _ _, fnOk _ _ _, ?_⟩
  intro bot k
  induction k with
  | zero =>
    intro n hn
    obtain ⟨m, rfl⟩ : ∃ m, n = m + 1 := ⟨n - 1, by omega⟩
    rfl
  | succ k ih =>
    intro n hn
    obtain ⟨m, rfl⟩ : ∃ m, n = m + 1 := ⟨n - 1, by omega⟩
    have h := ih m (by omega)
    show Res.ok ((k + 1) * settle (bot 0 [k])
      (depth (fun φ f as => (fnProg φ f).means fnW 0 (fun _ => .stop) (fun _ => 0) as) bot m 0 [k])) = _
    rw [h]
    rfl

end Aps.Props
