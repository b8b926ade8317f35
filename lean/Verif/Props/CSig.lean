import Verif.Proofs.CSig
import Verif.Props.CType
import Verif.Props.HashCons
/-! # C86 — canonical signatures: identity and printing (analyze/canonical-signature.c) -/
namespace Aps.Props
open Aps.HashCons Aps.CType Aps.CSig
open Aps.HashTable (NtpOk)

/-- A history of calls of `new_canonical_signature`; the addresses returned, in order. -/
def runSigs (th : Nat → BitVec 64) (ntp : Nat → Res Nat) : List SigObj → HC SigObj → Res (List Nat × HC SigObj)
  | [], t => .ok ([], t)
  | x :: xs, t => do
    let (a, t) ← newSignature th ntp t x.input x.var x.cls x.actuals
    let (as, t) ← runSigs th ntp xs t
    return (a :: as, t)

theorem runSigs_eq (th : Nat → BitVec 64) (ntp : Nat → Res Nat) : ∀ (xs : List SigObj) (t : HC SigObj),
    runSigs th ntp xs t = runGets (sigOps th) ntp xs t
  | [], t => rfl
  | x :: xs, t => by
    simp only [runSigs, runGets, newSignature]
    congr 1
    funext ⟨a, t⟩
    simp only [runSigs_eq th ntp xs t]

/-- **C86 (identity).** In any history of constructions two signatures are at the same address iff they have the same flags,
the same class and the same (addresses of) actuals; and that is what is at the address. -/
theorem C86_identity {th : Nat → BitVec 64} {ntp : Nat → Res Nat} (hn : NtpOk ntp) {xs : List SigObj} {as : List Nat} {t : HC SigObj}
    (h : runSigs th ntp xs (HC.init _) = .ok (as, t)) {i j : Nat} {x y : SigObj} {a b : Nat}
    (hx : xs[i]? = some x) (hy : xs[j]? = some y) (ha : as[i]? = some a) (hb : as[j]? = some b) :
    (a = b ↔ x.input = y.input ∧ x.var = y.var ∧ x.cls = y.cls ∧ x.actuals = y.actuals) ∧ a ≠ 0 ∧ t.heap[a - 1]? = some x := by
  rw [runSigs_eq] at h
  refine ⟨?_, ?_⟩
  · rw [C05_same_address_iff_equal (sigOps_lawful th) hn h hx hy ha hb]
    show sigEqual x y = true ↔ _
    rw [sigEqual_iff]
    cases x; cases y; simp
  · obtain ⟨-, k⟩ := C05_content (sigOps_lawful th) hn h
    obtain ⟨k1, z, k2, k3⟩ := k hx ha
    exact ⟨k1, by rw [k2, (sigEqual_iff z x).1 k3]⟩

/-- Non-vacuity: `LIST[T]`, `LIST[S]`, `LIST[T]` again, and `LIST[T]` as an input. -/
example : ∃ t, runSigs (fun _ => 3) (fun _ => .nofuel) [⟨false, false, 7, [1]⟩, ⟨false, false, 7, [2]⟩, ⟨false, false, 7, [1]⟩, ⟨true, false, 7, [1]⟩] (HC.init _) =
    .ok ([1, 2, 1, 3], t) := ⟨_, by with_unfolding_all rfl⟩

/-- **C86 (printing).** Whatever the order of the addresses: printing a set of signatures (with actuals from any history of
types) ends and prints each signature once, in the order of `canonical_signature_compare`. -/
theorem C86_printed {ntp : Nat → Res Nat} (hn : NtpOk ntp) {cs : List TyCmd} {as : List Nat} {t : HC Node}
    (h : runTys ntp cs [] (HC.init _) = .ok (as, t)) (line : Nat → Int) (name tyText : Nat → String)
    {set : List SigObj} (ho : ∀ s ∈ set, ∀ a ∈ s.actuals, a ∈ as) :
    ∃ l : List SigObj, printSet name tyText line (typeCompare line t.heap (t.heap.length + 1)) set =
        .ok ("{" ++ String.intercalate "," (l.map (printSig name tyText)) ++ "}") ∧ l.Perm set ∧
      l.Pairwise (fun s u => ∃ c, sigCompare line (typeCompare line t.heap (t.heap.length + 1)) s u = .ok c ∧ c ≤ 0) := by
  obtain ⟨cmp, h1, h2, h3, h4⟩ := C30_total_preorder hn h line
  have p : Pre (· ∈ as) cmp := ⟨h2, fun a b ha hb => h3 a ha b hb, fun a b d ha hb hd => h4 a ha b hb d hd⟩
  have sp : ∀ a b, Over as a → Over as b → sigCompare line (typeCompare line t.heap (t.heap.length + 1)) a b = .ok (cmpSig line cmp a b) :=
    fun a b ha hb => sigCompare_spec h1 ha hb
  obtain ⟨l', k1, k2, k3⟩ := sortLoop_spec sp (cmpSig_pre p) set [] ho (by simp) .nil
  rw [List.append_nil] at k2
  refine ⟨l'.reverse, by simp [printSet, k1], (List.reverse_perm l').trans k2, ?_⟩
  rw [List.pairwise_reverse]
  refine k3.imp_of_mem fun {a b} ha hb hc => ⟨_, sp b a (ho b (k2.mem_iff.1 hb)) (ho a (k2.mem_iff.1 ha)), hc⟩

/-- **C86 (printing does not depend on addresses), partial.** If the classes in the set are on different lines, and so are the
declarations used in types, the text printed is the same for each order of the elements. Missing: refuted below. -/
theorem C86_order_partial {ntp : Nat → Res Nat} (hn : NtpOk ntp) {cs : List TyCmd} {as : List Nat} {t : HC Node}
    (h : runTys ntp cs [] (HC.init _) = .ok (as, t)) (line : Nat → Int) (name tyText : Nat → String)
    (hline : ∀ A ∈ tysOf cs [], ∀ B ∈ tysOf cs [], ∀ d ∈ A.decls, ∀ e ∈ B.decls, line d = line e → d = e)
    {set set' : List SigObj} (ho : ∀ s ∈ set, ∀ a ∈ s.actuals, a ∈ as) (hcls : ∀ s ∈ set, ∀ u ∈ set, line s.cls = line u.cls → s.cls = u.cls)
    (hp : set.Perm set') :
    printSet name tyText line (typeCompare line t.heap (t.heap.length + 1)) set =
      printSet name tyText line (typeCompare line t.heap (t.heap.length + 1)) set' := by
  obtain ⟨l, k1, k2, k3⟩ := C86_printed hn h line name tyText ho
  obtain ⟨l', j1, j2, j3⟩ := C86_printed hn h line name tyText (set := set') (fun s hs => ho s (hp.mem_iff.2 hs))
  rw [k1, j1]
  have : l = l' := by
    obtain ⟨cmp, h1, h2, h3, h4⟩ := C30_total_preorder hn h line
    have p : Pre (· ∈ as) cmp := ⟨h2, fun a b ha hb => h3 a ha b hb, fun a b d ha hb hd => h4 a ha b hb d hd⟩
    have pp := cmpSig_pre (line := line) p
    refine List.Perm.eq_of_pairwise ?_ k3 j3 (k2.trans (hp.trans j2.symm))
    rintro s u hs hu ⟨c, e, g⟩ ⟨c', e', g'⟩
    have hs := k2.mem_iff.1 hs
    have hu := hp.mem_iff.2 (j2.mem_iff.1 hu)
    have os : Over as s := ho s hs
    have ou : Over as u := ho u hu
    rw [sigCompare_spec h1 os ou] at e
    rw [sigCompare_spec h1 ou os, pp.neg s u os ou] at e'
    cases e; cases e'
    have z : cmpSig line cmp s u = 0 := by omega
    obtain ⟨z, z5⟩ := lex_zero.1 z
    obtain ⟨z, z4⟩ := lex_zero.1 z
    obtain ⟨z, z3⟩ := lex_zero.1 z
    obtain ⟨z1, z2⟩ := lex_zero.1 z
    have e3 := hcls s hs u hu (by omega)
    have e5 := lexList_zero _ _ (fun a ha b hb h0 => by
      obtain ⟨i, hi⟩ := List.mem_iff_getElem?.1 (os a ha)
      obtain ⟨j, hj⟩ := List.mem_iff_getElem?.1 (ou b hb)
      obtain ⟨-, r⟩ := runTys_spec hn cs TInv.init (ds := []) ⟨rfl, by simp⟩ h
      have li : i < (tysOf cs []).length := by rw [← r.1]; exact (List.getElem?_eq_some_iff.1 hi).1
      have lj : j < (tysOf cs []).length := by rw [← r.1]; exact (List.getElem?_eq_some_iff.1 hj).1
      have hA := List.getElem?_eq_getElem li
      have hB := List.getElem?_eq_getElem lj
      have := C30_identity_partial hn h line hi hj hA hB (hline _ (List.mem_of_getElem? hA) _ (List.mem_of_getElem? hB))
      rw [h1 a (os a ha) b (ou b hb), h0] at this
      exact this.1 rfl) (by omega) z5
    obtain ⟨i, v, c, a⟩ := s
    obtain ⟨i', v', c', a'⟩ := u
    have e1 := bit_sub.1 z1
    have e2 := bit_sub.1 z2
    simp only at e1 e2 e3 e5
    subst e1 e2 e3 e5
    rfl
  rw [this]

/-- Non-vacuity: `LIST[T]`, `LIST[S]` and `BASIC[T]` in two orders. -/
example : ∃ t, runTys (fun _ => .nofuel) [.use 100, .use 200] [] (HC.init _) = .ok ([1, 2], t) ∧
    printSet (fun d => if d = 7 then "LIST" else "BASIC") (fun a => if a = 1 then "T" else "S") (fun d => d)
      (typeCompare (fun d => d) t.heap (t.heap.length + 1)) [⟨false, false, 7, [2]⟩, ⟨false, false, 3, [1]⟩, ⟨false, false, 7, [1]⟩] = .ok "{BASIC[T],LIST[T],LIST[S]}" ∧
    printSet (fun d => if d = 7 then "LIST" else "BASIC") (fun a => if a = 1 then "T" else "S") (fun d => d)
      (typeCompare (fun d => d) t.heap (t.heap.length + 1)) [⟨false, false, 7, [1]⟩, ⟨false, false, 7, [2]⟩, ⟨false, false, 3, [1]⟩] = .ok "{BASIC[T],LIST[T],LIST[S]}" :=
  ⟨_, by with_unfolding_all rfl, by decide +kernel, by decide +kernel⟩

/-- The full claim fails: with two classes on lines with the same number (e.g. of different files) the text depends
on which signature has the lower address. -/
theorem C86_order_refuted :
    printSet (fun d => if d = 7 then "LIST" else "BASIC") (fun _ => "") (fun _ => 12) (fun _ _ => .ok 0) [⟨false, false, 7, []⟩, ⟨false, false, 3, []⟩] = .ok "{LIST[],BASIC[]}" ∧
    printSet (fun d => if d = 7 then "LIST" else "BASIC") (fun _ => "") (fun _ => 12) (fun _ _ => .ok 0) [⟨false, false, 3, []⟩, ⟨false, false, 7, []⟩] = .ok "{BASIC[],LIST[]}" :=
  ⟨by decide +kernel, by decide +kernel⟩

end Aps.Props
