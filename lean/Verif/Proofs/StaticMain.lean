import Verif.Proofs.StaticRun
import Mathlib.Data.List.Range
set_option linter.unusedVariables false
/-!
# Static visit procedures: all visits of a tree
-/
namespace Aps.Static

open Aps.Oag

variable {V : Type} {ph : Phyla} {P : Prod V} {J : Store V → Prop}
variable {prods : List (Prod V)} {kids : List Tree} {a : Addr} {call : Nat → Nat → Store V → Res (Store V)}

/-! ## The generator succeeds -/

def Cto.weight : Cto → Nat
  | .nil => 1
  | .node _ next => 2 + Cto.weight next
  | .ifs _ f t => 1 + Cto.weight f + Cto.weight t

theorem assignLoop_total {n : Nat} {b : Block V} (h : ∀ q ∈ b.own, q.1 < n) : ∀ arr : Asg V, assignLoop n b arr = .ok (over arr b.own) := by
  induction b with
  | nil => intro arr; rfl
  | decl i rest ih => intro arr; simp only [assignLoop]; exact ih h arr
  | assign i e rest ih =>
    intro arr
    simp only [assignLoop]
    have : i < n := h (i, e) (by simp [Block.own])
    rw [if_neg (by omega)]
    exact ih (fun q hq => h q (by simp [Block.own, hq])) _
  | cond r t f rest _ _ ih => intro arr; simp only [assignLoop]; exact ih h arr

theorem branch_assigned (hd : Described ph P) (hs : Scheduled ph P) {τ : Nat → Bool} {r : Nat} {inst : Inst V} {rule : Rule V}
    (hi : P.insts[r]? = some inst) (hr : inst.rule = some rule) (hm : r ∈ P.path τ) :
    ∀ q ∈ rule.branch (τ r), q.1 < P.insts.length := by
  intro q hq
  have ht : r ∈ P.body.tested τ := (hs.tested τ r).2 ⟨hm, inst, hi, by rw [hr]; rfl⟩
  obtain ⟨t, f, hh, hsub⟩ := tested_source ht
  rw [branch_own hd hh hi hr] at hq
  exact hd.assigned τ q (hsub q hq)

theorem visits_le_cur (hph : Phased ph) (hd : Described ph P) (hs : Scheduled ph P) {σ : Nat → Bool} : ph.visits P.lhsPhy ≤ P.cur (P.path σ) := by
  by_cases h0 : ph.visits P.lhsPhy = 0
  · omega
  obtain ⟨x, hx⟩ := hph.syn P.lhsPhy (ph.visits P.lhsPhy) (by omega) (Nat.le_refl _)
  obtain ⟨i, hi, inst, hin, hl, rfl⟩ := hs.lhs σ x _ hx
  obtain ⟨_, hsc, _⟩ := hd.lhs i inst hin hl
  rw [hx] at hsc
  have hph' : inst.ph = (ph.visits P.lhsPhy : Int) := (Option.some.inj hsc).symm
  have := cur_max P (P.path σ) (hs.phases σ) (hs.known σ) hi hin hl
  omega

theorem implement_total (hV : Valid ph prods) (hP : P ∈ prods) (phase : Nat) :
    ∀ (T : Cto) (fuel : Nat) (σ : Nat → Bool) (l : List Nat), Cto.weight T ≤ fuel → P.Shaped T →
      (∀ τ : Nat → Bool, (∀ r ∈ l, τ r = σ r) → P.path τ = l ++ T.path (fun i => some i) τ) → P.cur l ≤ phase →
      ∃ code, implement P phase fuel (P.cur l) T (P.asg σ l) (P.cps l) = .ok (code, decide (phase < ph.visits P.lhsPhy)) := by
  have hs := hV.scheduled P hP
  have hd := hV.described P hP
  intro T
  induction T with
  | nil =>
    intro fuel σ l hf hsh hsp hcur
    cases fuel with
    | zero => simp [Cto.weight] at hf
    | succ f =>
      have := hsp σ fun _ _ => rfl
      simp only [Cto.path, List.append_nil] at this
      have hv := visits_le_cur hV.phased hd hs (σ := σ)
      rw [this] at hv
      exact ⟨.done, by simp only [implement]; rw [decide_eq_false (by omega)]⟩
  | node i next ih =>
    intro fuel σ l hf hsh hsp hcur
    have hp := hsp σ fun _ _ => rfl
    obtain ⟨inst, hpos⟩ := pos_of_path hV.phased hd hs (show P.path σ = l ++ i :: next.path (fun i => some i) σ from hp)
    simp only [Cto.weight] at hf
    have hrn : inst.rule = none := by
      cases hru : inst.rule with
      | none => rfl
      | some x => exact absurd ⟨inst, hpos.found, by rw [hru]; rfl⟩ hsh.1
    have hasg : P.asg σ (l ++ [i]) = P.asg σ l := asg_snoc_other P σ l hpos.found hrn
    obtain ⟨f, rfl⟩ : ∃ f, fuel = f + 1 := ⟨fuel - 1, by omega⟩
    simp only [implement, hpos.found, parent_eq hpos phase]
    by_cases hover : inst.lhs = true ∧ inst.ph.natAbs = P.cur l + 1 ∧ P.cur l = phase
    · rw [if_pos hover]
      obtain ⟨_, hsc, _⟩ := hd.lhs i inst hpos.found hover.1
      have := (hV.phased.range _ _ _ hsc).2
      exact ⟨.done, by simp only; rw [decide_eq_true (by omega)]⟩
    · rw [if_neg hover]
      simp only
      have hcur' : P.cur (l ++ [i]) ≤ phase := by
        rw [cur_snoc P l hpos.found]
        split
        · rename_i hl
          rcases (hpos.lhs hl).2 with h | h
          · omega
          · by_cases he : P.cur l = phase
            · exact absurd ⟨hl, h, he⟩ hover
            · omega
        · exact hcur
      have step : ∀ g, Cto.weight next ≤ g → ∃ code, implement P phase g (P.cur (l ++ [i])) next (P.asg σ l) (P.cps (l ++ [i])) =
          .ok (code, decide (phase < ph.visits P.lhsPhy)) := by
        intro g hg
        rw [← hasg]
        exact ih g σ (l ++ [i]) hg hsh.2 (split_node hsp) hcur'
      have last : ∀ g, Cto.weight next ≤ g → ∃ code,
          (if phase ≠ P.cur (l ++ [i]) then implement P phase g (P.cur (l ++ [i])) next (P.asg σ l) (P.cps (l ++ [i]))
           else do
            let r ← implement P phase g (P.cur (l ++ [i])) next (P.asg σ l) (P.cps (l ++ [i]))
            match emits inst ((P.asg σ l)[i]?.getD none) with
            | none => return r
            | some e => return (.assign i e r.1, r.2)) = .ok (code, decide (phase < ph.visits P.lhsPhy)) := by
        intro g hg
        obtain ⟨code, hc⟩ := step g hg
        by_cases hph : phase ≠ P.cur (l ++ [i])
        · rw [if_pos hph]; exact ⟨code, hc⟩
        · rw [if_neg hph, hc]
          cases emits inst ((P.asg σ l)[i]?.getD none) with
          | none => exact ⟨code, rfl⟩
          | some e => exact ⟨.assign i e code, rfl⟩
      cases hc : childChange inst (P.cps l) with
      | none =>
        simp only [hrn, Option.isSome_none]
        rw [if_neg (by simp), ← cps_snoc_same hpos ((change_none_iff hpos).1 hc)]
        exact last f (by omega)
      | some c =>
        obtain ⟨h1, h2, h3⟩ := (change_iff hpos).1 hc
        have hcl := (hpos.ch c h1).1
        have hl := lhs_of_ch hd hpos.found h1
        simp only [cps_get P l hcl, ← cps_snoc_change hpos h1 h2 h3]
        obtain ⟨g, rfl⟩ : ∃ g, f = g + 1 := ⟨f - 1, by omega⟩
        obtain ⟨code, hcode⟩ := last g (by omega)
        have hagain : implement P phase (g + 1) (P.cur (l ++ [i])) (.node i next) (P.asg σ l) (P.cps (l ++ [i])) =
            .ok (code, decide (phase < ph.visits P.lhsPhy)) := by
          simp only [implement, hpos.found]
          rw [show parentPhase inst phase (P.cur (l ++ [i])) = some (P.cur (l ++ [i])) by simp [parentPhase, hl]]
          simp only [change_again hpos hc, hrn, Option.isSome_none]
          rw [if_neg (by simp)]
          exact hcode
        rw [hagain]
        by_cases hph : P.cur (l ++ [i]) = phase
        · rw [if_pos hph, if_neg (by omega)]; exact ⟨.visit c inst.ph.toNat code, rfl⟩
        · rw [if_neg hph]; exact ⟨code, rfl⟩
  | ifs i f t ihf iht =>
    intro fuel σ l hf hsh hsp hcur
    have hp := hsp σ fun _ _ => rfl
    obtain ⟨inst, hpos⟩ := pos_of_path hV.phased hd hs (show P.path σ = l ++ i :: _ from hp)
    simp only [Cto.weight] at hf
    obtain ⟨x, hx, hxr⟩ := hsh.1
    rw [hpos.found] at hx; cases hx
    obtain ⟨rule, hr⟩ := Option.isSome_iff_exists.1 hxr
    obtain ⟨hl, hch⟩ := hd.rule i inst hpos.found hxr
    have hcur' : P.cur (l ++ [i]) = P.cur l := by rw [cur_snoc P l hpos.found, hl]; rfl
    have hcps : P.cps (l ++ [i]) = P.cps l := cps_snoc_same hpos (by rw [hch]; intro c hc; cases hc)
    obtain ⟨g, rfl⟩ : ∃ g, fuel = g + 1 := ⟨fuel - 1, by omega⟩
    let τ : Bool → Nat → Bool := fun b q => if q = i then b else σ q
    have hτ : ∀ b, ∀ q ∈ l, τ b q = σ q := by
      intro b q hq
      show (if q = i then b else σ q) = σ q
      rw [if_neg fun (e : q = i) => hpos.notin (e ▸ hq)]
    have hτi : ∀ b, τ b i = b := by intro b; show (if i = i then b else σ i) = b; rw [if_pos rfl]
    have hmem : ∀ b, i ∈ P.path (τ b) := by
      intro b; rw [hsp (τ b) (hτ b)]; simp [Cto.path]
    have hasg : ∀ b, P.asg (τ b) (l ++ [i]) = over (P.asg σ l) (rule.branch b) := by
      intro b; rw [asg_snoc_rule P (τ b) l hpos.found hr, asg_congr P (hτ b), hτi]
    have hin : ∀ b, ∀ q ∈ rule.branch b, q.1 < P.insts.length := by
      intro b
      have := branch_assigned hd hs hpos.found hr (hmem b)
      rwa [hτi] at this
    obtain ⟨ct, hct⟩ := iht g (τ true) (l ++ [i]) (by omega) hsh.2.2
      (by have := split_ifs (hτ true) hsp; rw [hτi] at this; exact this) (by rw [hcur']; exact hcur)
    obtain ⟨cf, hcf⟩ := ihf g (τ false) (l ++ [i]) (by omega) hsh.2.1
      (by have := split_ifs (hτ false) hsp; rw [hτi] at this; exact this) (by rw [hcur']; exact hcur)
    rw [hasg, hcur', hcps] at hct hcf
    simp only [implement, hpos.found]
    rw [show parentPhase inst phase (P.cur l) = some (P.cur l) by simp [parentPhase, hl],
      show childChange inst (P.cps l) = none by simp [childChange, hch]]
    simp only [hr, makeAssignment]
    rw [assignLoop_total (show ∀ q ∈ rule.ifTrue.own, q.1 < P.insts.length from fun q hq => hin true q (by simpa [Rule.branch] using hq))]
    simp only [Res.ok_bind]
    rw [show over (P.asg σ l) rule.ifTrue.own = over (P.asg σ l) (rule.branch true) from rfl, hct]
    simp only [Res.ok_bind]
    cases hif : rule.ifFalse with
    | some b =>
      have hb : rule.branch false = b.own := by simp [Rule.branch, hif]
      simp only
      rw [assignLoop_total (show ∀ q ∈ b.own, q.1 < P.insts.length from fun q hq => hin false q (by rw [hb]; exact hq))]
      rw [hb] at hcf
      simp only [Res.ok_bind, hcf]
      exact ⟨_, rfl⟩
    | none =>
      have hb : rule.branch false = [] := by simp [Rule.branch, hif]
      rw [hb] at hcf
      simp only [Res.ok_bind]
      rw [show over (P.asg σ l) [] = P.asg σ l from rfl] at hcf
      simp only [hcf, Res.ok_bind]
      exact ⟨_, rfl⟩

theorem cps_nil (P : Prod V) : P.cps [] = List.replicate P.kidPhy.length 0 := by
  apply List.ext_getElem?
  intro c
  by_cases hc : c < P.kidPhy.length
  · simp [Prod.cps, hc, Prod.cp]
  · rw [List.getElem?_eq_none (by simp [Prod.cps]; omega), List.getElem?_eq_none (by simp; omega)]

/-- what the procedures of a production are -/
def CodesOk (ph : Phyla) (P : Prod V) (cs : List (Code V)) : Prop :=
  cs.length = ph.visits P.lhsPhy ∧ ∀ m < ph.visits P.lhsPhy, ∃ fuel r, cs[m]? = some r.1 ∧
    ∀ σ, implement P (m + 1) fuel (P.cur []) P.cto (P.asg σ []) (P.cps []) = .ok r

theorem dumpLoop_total (hV : Valid ph prods) (hP : P ∈ prods) {fuel : Nat} (hf : Cto.weight P.cto ≤ fuel) (σ : Nat → Bool) :
    ∀ (rounds phase : Nat), phase < ph.visits P.lhsPhy → ph.visits P.lhsPhy - phase ≤ rounds →
      ∃ cs, dumpLoop P fuel (P.asg σ []) rounds phase = .ok cs ∧ cs.length = ph.visits P.lhsPhy - phase ∧
        ∀ j < ph.visits P.lhsPhy - phase, ∃ r, cs[j]? = some r.1 ∧
          implement P (phase + j + 1) fuel (P.cur []) P.cto (P.asg σ []) (P.cps []) = .ok r := by
  intro rounds
  induction rounds with
  | zero => intro phase h1 h2; omega
  | succ rounds ih =>
    intro phase h1 h2
    obtain ⟨code, hc⟩ := implement_total hV hP (phase + 1) P.cto fuel σ [] hf (hV.scheduled P hP).shaped
      (fun τ _ => rfl) (by simp [Prod.cur])
    have hc' := hc
    rw [cps_nil] at hc'
    simp only [dumpLoop]
    rw [show implement P (phase + 1) fuel 0 P.cto (P.asg σ []) (List.replicate P.kidPhy.length 0) = _ from hc']
    simp only [Res.ok_bind]
    by_cases hlt : phase + 1 < ph.visits P.lhsPhy
    · rw [if_pos (by simpa using hlt)]
      obtain ⟨cs, h3, h4, h5⟩ := ih (phase + 1) hlt (by omega)
      rw [h3]
      refine ⟨code :: cs, rfl, by simp [h4]; omega, ?_⟩
      intro j hj
      cases j with
      | zero => exact ⟨_, rfl, hc⟩
      | succ j =>
        obtain ⟨r, h6, h7⟩ := h5 j (by omega)
        refine ⟨r, by simpa using h6, ?_⟩
        rw [show phase + (j + 1) + 1 = phase + 1 + j + 1 by omega]
        exact h7
    · rw [if_neg (by simpa using hlt)]
      refine ⟨[code], rfl, by simp; omega, ?_⟩
      intro j hj
      have : j = 0 := by omega
      subst this
      exact ⟨_, rfl, hc⟩

theorem dumpVisits_total (hV : Valid ph prods) (hP : P ∈ prods) {fuel : Nat}
    (hf : Cto.weight P.cto ≤ fuel) (hf' : ph.visits P.lhsPhy ≤ fuel) :
    ∃ cs, dumpVisits P fuel = .ok cs ∧ CodesOk ph P cs := by
  have hs := hV.scheduled P hP
  have hd := hV.described P hP
  have hown : ∀ q ∈ P.body.own, q.1 < P.insts.length := fun q hq => hd.assigned (fun _ => false) q (active_of_own hq)
  have hasg : ∀ σ : Nat → Bool, P.asg σ [] = over P.defaults P.body.own := by
    intro σ; simp [Prod.asg, Prod.owns]
  have hne : P.cto ≠ .nil := by
    intro he
    have := visits_le_cur hV.phased hd hs (σ := fun _ => false)
    have h1 := hV.visited P hP
    have h2 : P.path (fun _ => false) = [] := by simp [Prod.path, he, Cto.path]
    rw [h2] at this
    simp [Prod.cur] at this
    omega
  obtain ⟨cs, h1, h2, h3⟩ := dumpLoop_total hV hP hf (fun _ => false) fuel 0 (hV.visited P hP) (by omega)
  refine ⟨cs, ?_, by omega, ?_⟩
  · simp only [dumpVisits, makeAssignment]
    rw [assignLoop_total hown, ← hasg (fun _ => false)]
    simp only [Res.ok_bind]
    cases hcto : P.cto with
    | nil => exact absurd hcto hne
    | node i n => rw [← h1]
    | ifs i f t => rw [← h1]
  · intro m hm
    obtain ⟨r, h4, h5⟩ := h3 m (by omega)
    refine ⟨fuel, r, h4, fun σ => ?_⟩
    rw [hasg σ, ← hasg (fun _ => false)]
    rw [show m + 1 = 0 + m + 1 by omega]
    exact h5

/-! ## The earlier part of the path -/

theorem cur_upto (hph : Phased ph) (hd : Described ph P) (hs : Scheduled ph P) {σ : Nat → Bool} {m : Nat} (h1 : 1 ≤ m)
    (h2 : m ≤ ph.visits P.lhsPhy) : P.cur (P.upto m (P.path σ)) = m := by
  obtain ⟨x, hx⟩ := hph.syn P.lhsPhy m h1 h2
  obtain ⟨i, hi, inst, hin, hl, rfl⟩ := hs.lhs σ x _ hx
  obtain ⟨_, hsc, _⟩ := hd.lhs i inst hin hl
  rw [hx] at hsc
  have hph' : inst.ph = (m : Int) := (Option.some.inj hsc).symm
  have hm := mem_upto hs hi hin hl (by omega : inst.ph.natAbs ≤ m)
  obtain ⟨rest, h3, h4, _⟩ := upto_spec P m (P.path σ)
  have hsort := hs.phases σ
  have hkn := hs.known σ
  rw [h3] at hsort hkn
  have hkn' : ∀ i ∈ P.upto m (P.path σ), i < P.insts.length := fun j hj => hkn j (List.mem_append_left _ hj)
  have hge := cur_max P _ (List.pairwise_append.1 hsort).1 hkn' hm hin hl
  rcases cur_mem P (P.upto m (P.path σ)) hkn' with h | ⟨j, hj, b, hb, hbl, he⟩
  · omega
  · have := h4 j hj b hb hbl
    omega

theorem cur_le_upto (hs : Scheduled ph P) {σ : Nat → Bool} {m : Nat} {l rest : List Nat} (h : P.upto m (P.path σ) = l ++ rest) :
    P.cur l ≤ m := by
  obtain ⟨rest', h3, h4, _⟩ := upto_spec P m (P.path σ)
  have hkn := hs.known σ
  rw [h3, h] at hkn
  rcases cur_mem P l (fun j hj => hkn j (by simp [hj])) with h' | ⟨j, hj, b, hb, hbl, he⟩
  · omega
  · have := h4 j (by rw [h]; simp [hj]) b hb hbl
    omega

/-- running the code of a visit, from the start of the path: what earlier visits have done is skipped -/
theorem skip (hV : Valid ph prods) (hP : P ∈ prods) (hJ : Adds J P a) (hcall : CallOk J ph prods P kids a call)
    (hkl : kids.length = P.kidPhy.length) (m : Nat) (hm1 : 1 ≤ m) (hm2 : m + 1 ≤ ph.visits P.lhsPhy) (σ : Nat → Bool) (st : Store V)
    (hinv : NInv P a σ (P.upto m (P.path σ)) st) (hkids : KidsOk ph prods P kids a (P.upto m (P.path σ)) st) (hnd : (keys st).Nodup) (hgood : J st)
    (hinh : InhReady ph P.lhsPhy a (m + 1) st) :
    ∀ (fuel : Nat) (T : Cto) (l : List Nat) (nv : Option V) (r : Code V × Bool),
      implement P (m + 1) fuel (P.cur l) T (P.asg σ l) (P.cps l) = .ok r → P.Shaped T →
      (∀ τ : Nat → Bool, (∀ r ∈ l, τ r = σ r) → P.path τ = l ++ T.path (fun i => some i) τ) →
      (∃ rest, P.upto m (P.path σ) = l ++ rest) → NV P a l st nv →
      Fin J ph prods P kids a (m + 1) σ (P.upto m (P.path σ)) st (run P call a r.1 nv st) := by
  have hs := hV.scheduled P hP
  have hd := hV.described P hP
  obtain ⟨rem, hrem, hle, hend⟩ := upto_spec P m (P.path σ)
  intro fuel
  induction fuel using Nat.strong_induction_on with
  | _ fuel ih =>
    intro T l nv r himp hsh hsp hrest hnv
    obtain ⟨rest, hrest⟩ := hrest
    have hpath := hsp σ fun _ _ => rfl
    have hTp : T.path (fun i => some i) σ = rest ++ rem := by
      rw [hrem, hrest, List.append_assoc] at hpath
      exact (List.append_cancel_left hpath).symm
    cases rest with
    | nil =>
      rw [List.append_nil] at hrest
      simp only [List.nil_append] at hTp
      rw [hrest] at hinv hkids ⊢
      refine walk hV hP hJ hcall hkl (m + 1) fuel T σ l st nv r himp ⟨hsh, hsp, hinv, hkids, hnv, hnd, hgood⟩ ?_ hinh
      have hcur : P.cur l = m := by rw [← hrest]; exact cur_upto hV.phased hd hs hm1 (by omega)
      right
      refine ⟨by omega, .inr ?_⟩
      rcases hend with rfl | ⟨i, post, inst, rfl, hi, hl, hk⟩
      · exfalso
        rw [hTp, List.append_nil] at hpath
        have := visits_le_cur hV.phased hd hs (σ := σ)
        rw [hpath] at this
        omega
      · cases T with
        | nil => cases hTp
        | node j next =>
          have : j = i := (List.cons.inj hTp).1
          subst this
          exact ⟨j, next, inst, rfl, hi, hl, by omega⟩
        | ifs j f t =>
          have : j = i := (List.cons.inj hTp).1
          subst this
          obtain ⟨x, hx, hxr⟩ := hsh.1
          rw [hi] at hx; cases hx
          rw [rule_none_of_lhs hd hi hl] at hxr; cases hxr
    | cons i rest =>
      have hcurl : P.cur l ≤ m := cur_le_upto hs hrest
      have hrest' : P.upto m (P.path σ) = (l ++ [i]) ++ rest := by rw [hrest]; simp
      have hcurl' : P.cur (l ++ [i]) ≤ m := cur_le_upto hs hrest'
      have hp : P.path σ = l ++ i :: (rest ++ rem) := by rw [hpath, hTp]; rfl
      obtain ⟨inst, hpos⟩ := pos_of_path hV.phased hd hs hp
      cases T with
      | nil => cases hTp
      | node j next =>
        have : j = i := (List.cons.inj hTp).1
        subst this
        have hrn : inst.rule = none := by
          cases hru : inst.rule with
          | none => rfl
          | some x => exact absurd ⟨inst, hpos.found, by rw [hru]; rfl⟩ hsh.1
        rcases step_node hd hpos hsh.1 himp with ⟨h1, h2, h3, rfl⟩ | ⟨fuel', r', hf, hover, hr', rfl⟩
        · omega
        · simp only
          rw [if_neg (by omega)]
          refine ih fuel' hf next (l ++ [j]) nv r' ?_ hsh.2 (split_node hsp) ⟨rest, hrest'⟩ (hnv.other hpos.found hrn)
          rw [asg_snoc_other P σ l hpos.found hrn]
          exact hr'
      | ifs j f t =>
        have : j = i := (List.cons.inj hTp).1
        subst this
        obtain ⟨x, hx, hxr⟩ := hsh.1
        rw [hpos.found] at hx; cases hx
        obtain ⟨rule, hr⟩ := Option.isSome_iff_exists.1 hxr
        obtain ⟨fuel', rt, rf, hf, hsub, rfl⟩ := step_ifs hd hpos hr himp
        have hcase : ∀ e pat, rule.test = .mat false e pat → P.caseExpr l = some e := by
          intro e pat he
          exact hs.cases σ l j _ hp inst e pat rule.ifTrue rule.ifFalse hpos.found (by rw [hr, ← he])
        have hb := hinv.tests j (by rw [hrest]; simp) inst rule hpos.found hr
        obtain ⟨nv', hnv', hrun⟩ := run_cond (call := call) hpos.found hr hnv hcase hb rt.1 rf.1
        have := ih fuel' hf (if σ j = true then t else f) (l ++ [j]) nv' _ (hsub σ fun _ _ => rfl)
          (by cases σ j with | true => exact hsh.2.2 | false => exact hsh.2.1) (split_ifs (fun _ _ => rfl) hsp) ⟨rest, hrest'⟩ hnv'
        simp only [hrun]
        cases hσ : σ j <;> simpa [hσ] using this

/-! ## All nodes -/

theorem height_kid {p : Nat} {kids : List Tree} {c : Nat} {kid : Tree} (h : kids[c]? = some kid) :
    kid.height < (Tree.node p kids).height := by
  rw [Tree.height]
  have hm := List.mem_of_getElem? h
  have : ∀ (l : List Nat) (x : Nat), x ∈ l → x ≤ l.foldr max 0 := by
    intro l x hx
    induction l with
    | nil => cases hx
    | cons y l ih =>
      simp only [List.foldr_cons]
      rcases List.mem_cons.1 hx with rfl | hx
      · omega
      · have := ih hx; omega
  have := this (kids.attach.map fun k => k.1.height) kid.height (by
    simp only [List.mem_map, List.mem_attach, true_and, Subtype.exists]
    exact ⟨kid, hm, rfl⟩)
  omega

theorem visit_ok (hV : Valid ph prods) {t₀ : Tree}
    (hJ : ∀ (a : Addr) (p : Nat) (kids : List Tree) (P : Prod V), At t₀ a (.node p kids) → prods[p]? = some P → Adds J P a) {codes : List (List (Code V))}
    (hcodes : ∀ (p : Nat) (P : Prod V), prods[p]? = some P → ∃ cs, codes[p]? = some cs ∧ CodesOk ph P cs) :
    ∀ (n : Nat) (t : Tree) (a : Addr) (kp m : Nat) (st : Store V), t.height ≤ n → At t₀ a t → HasTy prods t (some kp) →
      Sub ph prods st (some kp) t a m → m + 1 ≤ ph.visits kp → InhReady ph kp a (m + 1) st → (keys st).Nodup → J st →
      ∃ new, J (new ++ st) ∧ visitNode prods codes n t a (m + 1) st = .ok (new ++ st) ∧ (keys (new ++ st)).Nodup ∧
        (∀ s ∈ keys new, Terr ph (some kp) a s) ∧ Sub ph prods (new ++ st) (some kp) t a (m + 1) := by
  intro n
  induction n with
  | zero =>
    intro t a kp m st hh
    exfalso
    cases t with
    | leaf => rw [Tree.height] at hh; omega
    | node p kids => rw [Tree.height] at hh; omega
  | succ n ih =>
    intro t a kp m st hh hat hty hsub hm hinh hnd hgood
    cases hty with
    | @node p kids P hP hlen hkidty =>
      have hPm := List.mem_of_getElem? hP
      obtain ⟨cs, hcs, hlen', hcs'⟩ := hcodes p P hP
      obtain ⟨fuel, r, hr, himp⟩ := hcs' m (by omega)
      have hs := hV.scheduled P hPm
      have hd := hV.described P hPm
      let call : Nat → Nat → Store V → Res (Store V) := fun c ph st =>
        match kids[c]? with
        | none => .ub
        | some kid => visitNode prods codes n kid (c :: a) ph st
      have hcall : CallOk J ph prods P kids a call := by
        intro c kid kp' m' st' hc ho hsub' hm' hinh' hnd' hgood'
        have hty' := hkidty c kid (some kp') hc ho
        have := ih kid (c :: a) kp' m' st' (by have := height_kid (p := p) hc; omega) (.kid hat hc) hty' hsub' hm' hinh' hnd' hgood'
        show ∃ new, J (new ++ st') ∧ (match kids[c]? with | none => Res.ub | some kid => visitNode prods codes n kid (c :: a) (m' + 1) st') = _ ∧ _
        rw [hc]
        exact this
      have hrun : visitNode prods codes (n + 1) (.node p kids) a (m + 1) st = run P call a r.1 none st := by
        simp only [visitNode, hP, hcs, Option.bind_some, Nat.add_sub_cancel, hr]
        rfl
      rw [hrun]
      have main : ∃ σ l, Fin J ph prods P kids a (m + 1) σ l st (run P call a r.1 none st) := by
        generalize hkp : some P.lhsPhy = o at hsub
        cases hsub with
        | fresh hf =>
          subst hkp
          refine ⟨fun _ => false, [], walk hV hPm (hJ a p kids P hat hP) hcall hlen 1 fuel P.cto _ [] st none r (himp _) ⟨hs.shaped, fun τ _ => rfl, ?_, ?_, ?_, hnd, hgood⟩
            (.inr ⟨rfl, .inl ⟨rfl, by simp⟩⟩) hinh⟩
          · refine ⟨(fun i hi => nomatch hi), ?_, (fun i hi => nomatch hi), (fun i hi => nomatch hi)⟩
            intro i inst hi _ hrn hout hk
            exact hf _ hk (own_terr hV.phased hd hi hrn hout a)
          · intro c kid o hc ho
            exact .fresh fun s hs' hT => hf s hs' (terr_up hT)
          · intro e he; cases he
        | @node _ _ _ P' _ σ hP' hk hinv hkids =>
          rw [hP] at hP'; cases hP'
          exact ⟨σ, _, skip hV hPm (hJ a p kids P hat hP) hcall hlen m hk hm σ st hinv hkids hnd hgood hinh fuel P.cto [] none r (himp σ) hs.shaped (fun τ _ => rfl)
            ⟨_, rfl⟩ (fun e he => nomatch he)⟩
      obtain ⟨σ, l, new, τ, h0, h1, h2, h3, h4, h5, h6⟩ := main
      exact ⟨new, h0, h1, h2, h3, .node τ hP (by omega) h5 h6⟩

/-! ## The end -/

theorem mapM_of_readAll {a : Addr} {st : Store V} : ∀ {js : List Nat} {vs : List V}, readAll P a st js = .ok vs →
    js.mapM (P.value (get st) a) = some vs := by
  intro js
  induction js with
  | nil => intro vs h; simp only [readAll] at h; cases h; rfl
  | cons j js ih =>
    intro vs h
    simp only [readAll] at h
    cases hj : P.insts[j]? with
    | none => rw [hj] at h; cases h
    | some inst =>
      rw [hj] at h
      simp only at h
      cases hg : get st (inst.slot a) with
      | none => rw [hg] at h; cases h
      | some v =>
        rw [hg] at h
        simp only at h
        obtain ⟨vs', h1, h2⟩ := Res.bind_eq_ok.1 h
        simp only [Res.pure_eq] at h2
        cases h2
        simp [List.mapM_cons, Prod.value, hj, hg, ih h1]

theorem outcome_of_test {a : Addr} {st : Store V} {r : Nat} {inst : Inst V} {rule : Rule V} {b : Bool} (hi : P.insts[r]? = some inst)
    (hr : inst.rule = some rule) (h : P.test a st rule.test = .ok b) : P.outcome (get st) a r = some b := by
  unfold Prod.outcome
  simp only [hi, Option.bind_some, hr]
  cases ht : rule.test with
  | ifs reads fn =>
    rw [ht] at h
    obtain ⟨vs, h1, h2⟩ := Res.bind_eq_ok.1 h
    simp only [Res.pure_eq] at h2
    cases h2
    simp [mapM_of_readAll h1]
  | mat first e pat =>
    rw [ht] at h
    obtain ⟨vs, h1, h2⟩ := Res.bind_eq_ok.1 h
    simp only [Res.pure_eq] at h2
    cases h2
    simp [Prod.eval, mapM_of_readAll h1]

theorem solved_of_inv (hV : Valid ph prods) (hP : P ∈ prods) {a : Addr} {σ : Nat → Bool} {st : Store V}
    (h : NInv P a σ (P.path σ) st) : P.Solved (get st) a := by
  have hs := hV.scheduled P hP
  have hd := hV.described P hP
  refine ⟨σ, ?_, ?_⟩
  · intro r hr
    obtain ⟨hm, inst, hi, hru⟩ := (hs.tested σ r).1 hr
    obtain ⟨rule, hrule⟩ := Option.isSome_iff_exists.1 hru
    exact outcome_of_test hi hrule (h.tests r hm inst rule hi hrule)
  · intro i hout
    have hout' := hout
    obtain ⟨inst, hi, hcase⟩ := hout'
    have key : i ∈ P.path σ ∧ inst.rule = none ∧ (inst.kind = .node false ∨ inst.kind = .loc false) ∧ inst.inward = false := by
      rcases hcase with ⟨hl, hpos, hk⟩ | ⟨hch, hneg, hk⟩ | ⟨hk, hrn, hloc⟩
      · obtain ⟨hch, hsc, _, hio⟩ := hd.lhs i inst hi hl
        obtain ⟨j, hj, b, hb, hbl, hba⟩ := hs.lhs σ inst.attr _ hsc
        obtain ⟨hbch, _⟩ := hd.lhs j b hb hbl
        have hij := hd.inj j i b inst hb hi (rule_none_of_lhs hd hb hbl) (rule_none_of_lhs hd hi hl) (hbl.trans hl.symm) (hbch.trans hch.symm) hba
        subst hij
        refine ⟨hj, rule_none_of_lhs hd hi hl, .inl hk, ?_⟩
        cases hh : inst.inward with
        | false => rfl
        | true => have := hio.1 hh; omega
      · obtain ⟨c, hc⟩ := Option.ne_none_iff_exists'.1 hch
        obtain ⟨kp, hkp, hsc, _, hio⟩ := hd.ch i inst c hi hc
        obtain ⟨j, hj, b, hb, hbc, hba⟩ := hs.ch σ c kp inst.attr _ hkp hsc
        have hij := hd.inj j i b inst hb hi (rule_none_of_ch hd hb hbc) (rule_none_of_ch hd hi hc)
          ((lhs_of_ch hd hb hbc).trans (lhs_of_ch hd hi hc).symm) (hbc.trans hc.symm) hba
        subst hij
        refine ⟨hj, rule_none_of_ch hd hi hc, .inl hk, ?_⟩
        cases hh : inst.inward with
        | false => rfl
        | true => have := hio.1 hh; omega
      · have hl : inst.lhs = false := by
          cases hh : inst.lhs with
          | false => rfl
          | true => have := (hd.lhs i inst hi hh).2.2.1; rw [hk] at this; cases this
        have hch : inst.ch = none := by
          cases hh : inst.ch with
          | none => rfl
          | some c => obtain ⟨_, _, _, this, _⟩ := hd.ch i inst c hi hh; rw [hk] at this; cases this
        exact ⟨(hs.locals σ i inst hi hk hrn).1 hloc, hrn, .inr hk, (hd.loc i inst hi hrn hl hch).2⟩
    obtain ⟨hm, hrn, hk, hin⟩ := key
    obtain ⟨pre, post, e, vs, h1, h2, h3, h4⟩ := h.vals i hm inst hi ⟨inst, hi, hrn, hk⟩ hin
    have hnr : ¬ P.IsRule i := by
      rintro ⟨x, hx, hr⟩; rw [hi] at hx; cases hx; rw [hrn] at hr; cases hr
    rw [asg_eq_rhs hd hs h1 hnr] at h2
    refine ⟨e, e.fn vs, h2, ?_, ?_⟩
    · simp [Prod.eval, mapM_of_readAll h3]
    · simp [Prod.value, hi, h4]

theorem upto_visits (hV : Valid ph prods) (hP : P ∈ prods) (σ : Nat → Bool) : P.upto (ph.visits P.lhsPhy) (P.path σ) = P.path σ := by
  have := upto_eq P (ph.visits P.lhsPhy) (P.path σ) [] (fun i _ inst hi hl => by
    obtain ⟨_, hsc, _⟩ := (hV.described P hP).lhs i inst hi hl
    exact (hV.phased.range _ _ _ hsc).2) (.inl rfl)
  simpa using this

theorem cp_path (hV : Valid ph prods) (hP : P ∈ prods) (σ : Nat → Bool) {c kp : Nat} (hk : P.kidPhy[c]? = some (some kp)) :
    P.cp c (P.path σ) = ph.visits kp := by
  have hs := hV.scheduled P hP
  have hd := hV.described P hP
  by_cases h1 : ph.visits kp = 0
  · rcases cp_mem P c (P.path σ) (hs.known σ) with h | ⟨j, hj, b, hb, hbc, hpos, he⟩
    · omega
    · obtain ⟨kp', hk', hsc', _⟩ := hd.ch j b c hb hbc
      rw [hk] at hk'; cases hk'
      have := (hV.phased.range _ _ _ hsc').2
      omega
  obtain ⟨x, hx⟩ := hV.phased.syn kp (ph.visits kp) (by omega) (Nat.le_refl _)
  obtain ⟨i, hi, inst, hin, hc, rfl⟩ := hs.ch σ c kp x _ hk hx
  obtain ⟨kp', hk', hsc, _⟩ := hd.ch i inst c hin hc
  rw [hk] at hk'; cases hk'
  rw [hx] at hsc
  have hph' : inst.ph = (ph.visits kp : Int) := (Option.some.inj hsc).symm
  have hge := cp_max P c (P.path σ) (hs.phases σ) (hs.known σ) hi hin hc (by omega)
  rcases cp_mem P c (P.path σ) (hs.known σ) with h | ⟨j, hj, b, hb, hbc, hpos, he⟩
  · omega
  · obtain ⟨kp', hk', hsc', _⟩ := hd.ch j b c hb hbc
    rw [hk] at hk'; cases hk'
    have := (hV.phased.range _ _ _ hsc').2
    omega

theorem sub_at (hV : Valid ph prods) {st : Store V} {t : Tree} {root : Nat} (hty : HasTy prods t (some root))
    (h : Sub ph prods st (some root) t [] (ph.visits root)) {a : Addr} {s : Tree} (hat : At t a s) :
    ∃ o, HasTy prods s o ∧ ∀ kp, o = some kp → Sub ph prods st o s a (ph.visits kp) := by
  induction hat with
  | root => exact ⟨some root, hty, fun kp hk => by cases hk; exact h⟩
  | @kid a p c kids s hat hc ih =>
    obtain ⟨o, hty', hsub⟩ := ih
    cases hty' with
    | @node _ _ P hP hlen hkids =>
      obtain ⟨o', ho'⟩ : ∃ o', P.kidPhy[c]? = some o' := by
        have : c < kids.length := by
          by_contra hn; rw [List.getElem?_eq_none (by omega)] at hc; cases hc
        exact ⟨_, List.getElem?_eq_getElem (by omega)⟩
      refine ⟨o', hkids c s o' hc ho', ?_⟩
      rintro kp rfl
      have hsub' := hsub P.lhsPhy rfl
      have hv := hV.visited P (List.mem_of_getElem? hP)
      generalize hkp : some P.lhsPhy = o at hsub'
      generalize hvv : ph.visits P.lhsPhy = vv at hsub'
      cases hsub' with
      | fresh _ => omega
      | @node _ _ _ P' _ σ hP' hk hinv hkids' =>
        rw [hP] at hP'; cases hP'
        have hPm := List.mem_of_getElem? hP
        have := hkids' c s (some kp) hc ho'
        rw [← hvv, upto_visits hV hPm, cp_path hV hPm σ ho'] at this
        exact this

theorem solves_of_sub (hV : Valid ph prods) {st : Store V} {t : Tree} {root : Nat} (hty : HasTy prods t (some root))
    (h : Sub ph prods st (some root) t [] (ph.visits root)) : Solves prods t (get st) := by
  intro a p kids hat
  obtain ⟨o, hty', hsub⟩ := sub_at hV hty h hat
  cases hty' with
  | @node _ _ P hP hlen hkids =>
    refine ⟨P, hP, ?_⟩
    have hsub' := hsub P.lhsPhy rfl
    have hv := hV.visited P (List.mem_of_getElem? hP)
    generalize hkp : some P.lhsPhy = o at hsub'
    generalize hvv : ph.visits P.lhsPhy = vv at hsub'
    cases hsub' with
    | fresh _ => omega
    | @node _ _ _ P' _ σ hP' hk hinv hkids' =>
      rw [hP] at hP'; cases hP'
      have hPm := List.mem_of_getElem? hP
      rw [← hvv, upto_visits hV hPm] at hinv
      exact solved_of_inv hV hPm hinv

theorem visitRoot_ok (hV : Valid ph prods) {t : Tree}
    (hJ : ∀ (a : Addr) (p : Nat) (kids : List Tree) (P : Prod V), At t a (.node p kids) → prods[p]? = some P → Adds J P a) {codes : List (List (Code V))}
    (hcodes : ∀ (p : Nat) (P : Prod V), prods[p]? = some P → ∃ cs, codes[p]? = some cs ∧ CodesOk ph P cs)
    {n : Nat} {root : Nat} (hh : t.height ≤ n) (hty : HasTy prods t (some root)) :
    ∀ (j m : Nat) (st : Store V), m + j = ph.visits root → Sub ph prods st (some root) t [] m →
      InhReady ph root [] (ph.visits root) st → (keys st).Nodup → J st →
      ∃ new, J (new ++ st) ∧ visitRoot prods codes n t (List.range' (m + 1) j) st = .ok (new ++ st) ∧ (keys (new ++ st)).Nodup ∧
        (∀ s ∈ keys new, Terr ph (some root) [] s) ∧ Sub ph prods (new ++ st) (some root) t [] (ph.visits root) := by
  intro j
  induction j with
  | zero =>
    intro m st hm hsub hinh hnd hgood
    have : m = ph.visits root := by omega
    subst this
    exact ⟨[], hgood, rfl, hnd, by simp [keys], hsub⟩
  | succ j ih =>
    intro m st hm hsub hinh hnd hgood
    obtain ⟨new, h0, h1, h2, h3, h4⟩ := visit_ok hV hJ hcodes n t [] root m st hh .root hty hsub (by omega)
      (fun x s hx hn hl hi => hinh x s hx hn (by omega) hi) hnd hgood
    obtain ⟨new', h0', h5, h6, h7, h8⟩ := ih (m + 1) (new ++ st) (by omega) h4 hinh.mono h2 h0
    refine ⟨new' ++ new, by simpa using h0', ?_, by simpa using h6, ?_, by simpa using h8⟩
    · rw [List.range'_succ]
      simp only [visitRoot]
      rw [h1]
      simp only [Res.ok_bind]
      rw [h5]; simp
    · intro s hs
      rw [keys_append] at hs
      rcases List.mem_append.1 hs with hs | hs
      · exact h7 s hs
      · exact h3 s hs

end Aps.Static
