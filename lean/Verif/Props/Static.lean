import Verif.Proofs.StaticUnique
import Verif.Proofs.StaticSched
import Mathlib.Tactic.IntervalCases
set_option linter.unusedVariables false
/-!
# C60: the visit procedures of the static backend
-/
namespace Aps.Props

open Aps.Oag Aps.Static

/-- C60. For every grammar whose phases and total orders are in order, the generator prints visit procedures for
all productions, as many as the phylum has visits; and for every tree of the grammar, `visit()` with the inherited
attributes of the root set before (`init`) runs to the end, never reads an attribute before it is set, never sets
one twice, and leaves values that satisfy all equations of the tree; and every solution of the equations with the
same inherited attributes of the root has these values. -/
theorem C60_evaluates {V : Type} {ph : Phyla} {prods : List (Prod V)} (hV : Valid ph prods) :
    ∃ F, ∀ fuel ≥ F, ∃ codes, prods.mapM (fun P => dumpVisits P fuel) = .ok codes ∧
      codes.map (·.length) = prods.map (fun P => ph.visits P.lhsPhy) ∧
      ∀ (root : Nat) (t : Tree), HasTy prods t (some root) → (∀ P ∈ prods, some root ∉ P.kidPhy) →
      ∀ init : Store V, (init.map (·.1)).Nodup →
        (∀ w ∈ init, ∃ x s, w.1 = ([], .attr x) ∧ ph.sched root x = some s ∧ s < 0) →
        (∀ x s, ph.sched root x = some s → s < 0 → ph.implicit root x = false → ([], .attr x) ∈ init.map (·.1)) →
      ∀ n ≥ t.height, ∃ new, visitAll prods codes n root t (List.range' 1 (ph.visits root)) init = .ok (new ++ init) ∧
        ((new ++ init).map (·.1)).Nodup ∧ Solves prods t (Static.get (new ++ init)) ∧
        ∀ val, Solves prods t val → (∀ w ∈ init, val w.1 = some w.2) → ∀ w ∈ new ++ init, val w.1 = some w.2 := by
  classical
  refine ⟨(prods.map fun P => Cto.weight P.cto + ph.visits P.lhsPhy).sum, fun fuel hf => ?_⟩
  have hfuel : ∀ P ∈ prods, Cto.weight P.cto + ph.visits P.lhsPhy ≤ fuel := by
    intro P hP
    exact Nat.le_trans (le_sum_of_mem (List.mem_map.2 ⟨P, hP, rfl⟩)) hf
  have hgen : ∀ Ps : List (Prod V), (∀ P ∈ Ps, P ∈ prods) → ∃ codes, Ps.mapM (fun P => dumpVisits P fuel) = .ok codes ∧
      codes.map (·.length) = Ps.map (fun P => ph.visits P.lhsPhy) ∧
      ∀ (p : Nat) (P : Prod V), Ps[p]? = some P → ∃ cs, codes[p]? = some cs ∧ CodesOk ph P cs := by
    intro Ps
    induction Ps with
    | nil => intro _; exact ⟨[], rfl, rfl, by simp⟩
    | cons P Ps ih =>
      intro hPs
      have hP := hPs P (by simp)
      have := hfuel P hP
      obtain ⟨cs, h1, h2⟩ := dumpVisits_total hV hP (fuel := fuel) (by omega) (by omega)
      obtain ⟨codes, h3, h4, h5⟩ := ih fun Q hQ => hPs Q (by simp [hQ])
      refine ⟨cs :: codes, by simp [List.mapM_cons, h1, h3], by simp [h4, h2.1], ?_⟩
      intro p Q hQ
      cases p with
      | zero => cases hQ; exact ⟨cs, rfl, h2⟩
      | succ p => simpa using h5 p Q (by simpa using hQ)
  obtain ⟨codes, hc1, hc2, hc3⟩ := hgen prods fun _ h => h
  refine ⟨codes, hc1, hc2, ?_⟩
  intro root t hty hroot init hnd honly hall n hn
  have hfresh : Sub ph prods init (some root) t [] 0 := by
    refine .fresh fun s hs hT => ?_
    obtain ⟨w, hw, rfl⟩ := List.mem_map.1 hs
    obtain ⟨x, y, h1, h2, h3⟩ := honly w hw
    rw [h1] at hT
    rcases hT with ⟨b, c, h⟩ | ⟨_, ⟨x', h⟩ | ⟨x', y', k, hk, h, hy, hpos⟩⟩
    · simp at h
    · cases h
    · cases h; cases hk
      rw [h2] at hy; cases hy; omega
  have hinh : InhReady ph root [] (ph.visits root) init := fun x s h1 h2 _ h4 => hall x s h1 h2 h4
  have hmem : ∀ {st : Store V}, (keys st).Nodup → ∀ w ∈ st, get st w.1 = some w.2 := by
    intro st
    induction st with
    | nil => intro _ w hw; cases hw
    | cons v st ih =>
      intro hnd w hw
      obtain ⟨h1, h2⟩ := List.nodup_cons.1 (show (v.1 :: keys st).Nodup from hnd)
      rcases List.mem_cons.1 hw with rfl | hw
      · exact get_cons _ _ _
      · have hne : w.1 ≠ v.1 := fun e => h1 (e ▸ List.mem_map.2 ⟨w, hw, rfl⟩)
        rw [← ih h2 w hw]
        exact get_append (new := [v]) (by simp [keys]; exact hne)
  have hrun : ∀ (J : Store V → Prop), (∀ (a : Addr) (p : Nat) (kids : List Tree) (P : Prod V), At t a (.node p kids) → prods[p]? = some P →
      Adds J P a) → J init → ∃ new, J (new ++ init) ∧
        visitAll prods codes n root t (List.range' 1 (ph.visits root)) init = .ok (new ++ init) ∧ (keys (new ++ init)).Nodup ∧
        Solves prods t (Static.get (new ++ init)) := by
    intro J hJ hg
    obtain ⟨new, h0, h1, h2, h3, h4⟩ := visitRoot_ok hV hJ hc3 hn hty (ph.visits root) 0 init (by omega) hfresh hinh hnd hg
    refine ⟨new, h0, ?_, h2, solves_of_sub hV hty h4⟩
    rw [visitAll_eq (nodesOf_root hroot hty [])]
    exact h1
  obtain ⟨new, _, h1, h2, h3⟩ := hrun (fun _ => True) (fun _ _ _ _ _ _ => by intro; intros; trivial) trivial
  refine ⟨new, h1, h2, h3, ?_⟩
  intro val hsol hval w hw
  obtain ⟨new', h4, h5, h6, h7⟩ := hrun (Agree val) (fun a p kids P hat hP => by
    obtain ⟨P', hP', hs⟩ := hsol a p kids hat
    rw [hP] at hP'; cases hP'
    have hPm := List.mem_of_getElem? hP
    exact adds_agree (hV.described P hPm) (hV.scheduled P hPm) hs) (by
      intro s v hv
      unfold Static.get at hv
      obtain ⟨w, hw, rfl⟩ := Option.map_eq_some_iff.1 hv
      have h1 := List.mem_of_find?_eq_some hw
      have h2 := List.find?_some hw
      simp only [decide_eq_true_eq] at h2
      rw [← h2]
      exact hval w h1)
  rw [h1] at h5
  have : new' ++ init = new ++ init := (Res.ok.inj h5).symm
  rw [this] at h4
  exact h4 _ _ (hmem h2 w hw)

/-! ### An example grammar: `S ::= T`, `T ::= T`, `T ::=`; two visits of `T`; a conditional in the first
production, a local in the last -/

def stInst (lhs : Bool) (ch : Option Nat) (ph : Int) (inward : Bool) (kind : Kind) (attr : Nat) : Inst Nat :=
  ⟨lhs, ch, ph, none, inward, kind, attr⟩

def stPhyla : Phyla where
  sched p x := match p, x with
    | 0, 10 => some (-1) | 0, 11 => some 1
    | 1, 20 => some (-1) | 1, 21 => some 1 | 1, 22 => some (-2) | 1, 23 => some 2
    | _, _ => none
  implicit p x := match p, x with
    | 0, 10 => true | 1, 20 => true | _, _ => false
  visits p := match p with | 0 => 1 | 1 => 2 | _ => 0

/-- the block of the `if`, when true -/
def stThen : Block Nat := .assign 4 ⟨[3], fun vs => vs.sum⟩ .nil
def stElse : Block Nat := .assign 4 ⟨[], fun _ => 7⟩ .nil

def stP0 : Prod Nat where
  insts := [stInst true none (-1) true (.node true) 10, stInst true none 1 false (.node false) 11,
    stInst false (some 0) (-1) false (.node true) 20, stInst false (some 0) 1 true (.node false) 21,
    stInst false (some 0) (-2) false (.node false) 22, stInst false (some 0) 2 true (.node false) 23,
    ⟨false, none, 0, some ⟨.ifs [3] (fun vs => vs.sum > 6), stThen, some stElse⟩, false, .unknown, 0⟩]
  defaults := List.replicate 7 none
  body := .cond 6 stThen stElse (.assign 1 ⟨[5], fun vs => vs.sum⟩ .nil)
  cto := .node 0 (.node 2 (.node 3 (.ifs 6 (.node 4 (.node 5 (.node 1 .nil))) (.node 4 (.node 5 (.node 1 .nil))))))
  lhsPhy := 0
  kidPhy := [some 1]

def stP1 : Prod Nat where
  insts := [stInst true none (-1) true (.node true) 20, stInst true none 1 false (.node false) 21,
    stInst true none (-2) true (.node false) 22, stInst true none 2 false (.node false) 23,
    stInst false (some 0) (-1) false (.node true) 20, stInst false (some 0) 1 true (.node false) 21,
    stInst false (some 0) (-2) false (.node false) 22, stInst false (some 0) 2 true (.node false) 23]
  defaults := List.replicate 8 none
  body := .assign 1 ⟨[5], fun vs => vs.sum + 1⟩ (.assign 6 ⟨[2], fun vs => vs.sum * 2⟩ (.assign 3 ⟨[7], fun vs => vs.sum + 100⟩ .nil))
  cto := .node 0 (.node 4 (.node 5 (.node 1 (.node 2 (.node 6 (.node 7 (.node 3 .nil)))))))
  lhsPhy := 1
  kidPhy := [some 1]

def stP2 : Prod Nat where
  insts := [stInst true none (-1) true (.node true) 20, stInst true none 1 false (.node false) 21,
    stInst true none (-2) true (.node false) 22, stInst true none 2 false (.node false) 23,
    stInst false none 0 false (.loc false) 0]
  defaults := List.replicate 5 none
  body := .decl 4 (.assign 4 ⟨[2], fun vs => vs.sum + 3⟩ (.assign 1 ⟨[], fun _ => 5⟩ (.assign 3 ⟨[4], fun vs => vs.sum⟩ .nil)))
  cto := .node 0 (.node 1 (.node 2 (.node 4 (.node 3 .nil))))
  lhsPhy := 1
  kidPhy := []

def stProds : List (Prod Nat) := [stP0, stP1, stP2]

theorem stSplit {L pre post : List Nat} {i : Nat} (h : L = pre ++ i :: post) :
    ∃ k, k < L.length ∧ pre = L.take k ∧ L[k]? = some i := by
  subst h
  exact ⟨pre.length, by simp, by simp, by simp⟩

theorem stPhased : Phased stPhyla := by
  refine ⟨?_, ?_⟩
  · intro p x s h
    simp only [stPhyla] at h ⊢
    split at h <;> cases h <;> simp
  · intro p k h1 h2
    match p, k with
    | 0, 1 => exact ⟨11, rfl⟩
    | 1, 1 => exact ⟨21, rfl⟩
    | 1, 2 => exact ⟨23, rfl⟩
    | _, 0 => omega
    | 0, k + 2 => simp [stPhyla] at h2
    | 1, k + 3 => simp [stPhyla] at h2
    | p + 2, k + 1 => simp [stPhyla] at h2

theorem stP0_path (σ : Nat → Bool) : stP0.path σ = [0, 2, 3, 6, 4, 5, 1] := by
  simp [Prod.path, stP0, Cto.path]

theorem stP1_path (σ : Nat → Bool) : stP1.path σ = [0, 4, 5, 1, 2, 6, 7, 3] := by
  simp [Prod.path, stP1, Cto.path]

theorem stP2_path (σ : Nat → Bool) : stP2.path σ = [0, 1, 2, 4, 3] := by
  simp [Prod.path, stP2, Cto.path]

theorem stIdx {P : Prod Nat} {n : Nat} (hn : P.insts.length = n) {Q : Nat → Inst Nat → Prop}
    (h : ∀ i < n, ∀ inst, P.insts[i]? = some inst → Q i inst) : ∀ (i : Nat) (inst : Inst Nat), P.insts[i]? = some inst → Q i inst := by
  intro i inst hi
  refine h i ?_ inst hi
  subst hn
  by_contra hh
  rw [List.getElem?_eq_none (by omega)] at hi
  cases hi

theorem stP0_described : Described stPhyla stP0 := by
  refine ⟨rfl, ?_, ?_, ?_, ?_, ?_, ?_, ?_, ?_⟩
  · refine stIdx (n := 7) rfl fun i hi inst h => ?_
    interval_cases i <;> (simp [stP0, stInst] at h; subst h; simp)
  · refine stIdx (n := 7) rfl fun i hi inst h => ?_
    interval_cases i <;> (simp [stP0, stInst] at h; subst h; simp [stPhyla, stP0])
  · intro i inst c h
    revert i inst
    refine stIdx (n := 7) rfl fun i hi inst h => ?_
    interval_cases i <;> (simp [stP0, stInst] at h; subst h; simp [stPhyla, stP0]) <;> (rintro rfl; simp)
  · refine stIdx (n := 7) rfl fun i hi inst h => ?_
    interval_cases i <;> (simp [stP0, stInst] at h; subst h; simp)
  · intro i j a b hi hj
    revert j b
    revert i a
    refine stIdx (n := 7) rfl fun i hi a ha => ?_
    refine stIdx (n := 7) rfl fun j hj b hb => ?_
    interval_cases i <;> (simp [stP0, stInst] at ha; subst ha) <;> interval_cases j <;> (simp [stP0, stInst] at hb; subst hb; simp)
  · intro r t f h
    have h' : Block.Has (.cond 6 stThen stElse (.assign 1 ⟨[5], fun vs => vs.sum⟩ .nil)) r t f := h
    cases h' with
    | here => exact ⟨_, _, rfl, rfl, rfl, .inl rfl⟩
    | rest h => cases h with | assign h => cases h
    | inTrue h => cases h with | assign h => cases h
    | inFalse h => cases h with | assign h => cases h
  · intro σ q h
    cases hσ : σ 6 <;> simp [stP0, Block.active, stThen, stElse, hσ] at h <;> rcases h with rfl | rfl <;> decide
  · intro σ
    cases hσ : σ 6 <;> simp [stP0, Block.active, stThen, stElse, hσ]

theorem stP1_described : Described stPhyla stP1 := by
  refine ⟨rfl, ?_, ?_, ?_, ?_, ?_, ?_, ?_, ?_⟩
  · refine stIdx (n := 8) rfl fun i hi inst h => ?_
    interval_cases i <;> (simp [stP1, stInst] at h; subst h; simp)
  · refine stIdx (n := 8) rfl fun i hi inst h => ?_
    interval_cases i <;> (simp [stP1, stInst] at h; subst h; simp [stPhyla, stP1])
  · intro i inst c h
    revert i inst
    refine stIdx (n := 8) rfl fun i hi inst h => ?_
    interval_cases i <;> (simp [stP1, stInst] at h; subst h; simp [stPhyla, stP1]) <;> (rintro rfl; simp)
  · refine stIdx (n := 8) rfl fun i hi inst h => ?_
    interval_cases i <;> (simp [stP1, stInst] at h; subst h; simp)
  · intro i j a b hi hj
    revert j b
    revert i a
    refine stIdx (n := 8) rfl fun i hi a ha => ?_
    refine stIdx (n := 8) rfl fun j hj b hb => ?_
    interval_cases i <;> (simp [stP1, stInst] at ha; subst ha) <;> interval_cases j <;> (simp [stP1, stInst] at hb; subst hb; simp)
  · intro r t f h
    have h' : Block.Has (.assign 1 _ (.assign 6 _ (.assign 3 _ .nil))) r t f := h
    cases h' with | assign h => cases h with | assign h => cases h with | assign h => cases h
  · intro σ q h
    simp [stP1, Block.active] at h
    rcases h with rfl | rfl | rfl <;> decide
  · intro σ
    simp [stP1, Block.active]

theorem stP2_described : Described stPhyla stP2 := by
  refine ⟨rfl, ?_, ?_, ?_, ?_, ?_, ?_, ?_, ?_⟩
  · refine stIdx (n := 5) rfl fun i hi inst h => ?_
    interval_cases i <;> (simp [stP2, stInst] at h; subst h; simp)
  · refine stIdx (n := 5) rfl fun i hi inst h => ?_
    interval_cases i <;> (simp [stP2, stInst] at h; subst h; simp [stPhyla, stP2])
  · intro i inst c h
    revert i inst
    refine stIdx (n := 5) rfl fun i hi inst h => ?_
    interval_cases i <;> (simp [stP2, stInst] at h; subst h; simp [stPhyla, stP2])
  · refine stIdx (n := 5) rfl fun i hi inst h => ?_
    interval_cases i <;> (simp [stP2, stInst] at h; subst h; simp)
  · intro i j a b hi hj
    revert j b
    revert i a
    refine stIdx (n := 5) rfl fun i hi a ha => ?_
    refine stIdx (n := 5) rfl fun j hj b hb => ?_
    interval_cases i <;> (simp [stP2, stInst] at ha; subst ha) <;> interval_cases j <;> (simp [stP2, stInst] at hb; subst hb; simp)
  · intro r t f h
    have h' : Block.Has (.decl 4 (.assign 4 _ (.assign 1 _ (.assign 3 _ .nil)))) r t f := h
    cases h' with | decl h => cases h with | assign h => cases h with | assign h => cases h with | assign h => cases h
  · intro σ q h
    simp [stP2, Block.active] at h
    rcases h with rfl | rfl | rfl <;> decide
  · intro σ
    simp [stP2, Block.active]

theorem stP2_scheduled : Scheduled stPhyla stP2 := by
  have hL := stP2_path
  refine ⟨?_, ?_, ?_, ?_, ?_, ?_, ?_, ?_, ?_, ?_, ?_, ?_, ?_, ?_⟩
  · simp [stP2, Prod.Shaped, Prod.IsRule, stInst]
  · intro σ; rw [hL]; decide
  · intro σ; rw [hL]; decide
  · intro σ x s h
    rw [hL]
    simp only [stPhyla, stP2] at h
    split at h <;> first | exact ⟨0, by decide, _, rfl, rfl, rfl⟩ | exact ⟨1, by decide, _, rfl, rfl, rfl⟩ | exact ⟨2, by decide, _, rfl, rfl, rfl⟩ | exact ⟨3, by decide, _, rfl, rfl, rfl⟩ | (exfalso; omega) | (cases h)
  · intro σ c k x s hk h
    rw [hL]
    simp [stP2] at hk
  · intro σ r
    rw [hL]
    constructor
    · intro h; simp [stP2, Block.tested] at h
    · rintro ⟨h, x, hx, hr⟩
      exfalso
      simp only [List.mem_cons, List.not_mem_nil, or_false] at h
      rcases h with rfl | rfl | rfl | rfl | rfl <;> (simp [stP2, stInst] at hx; subst hx; cases hr)
  · intro σ i inst
    revert i inst
    refine stIdx (n := 5) rfl fun i hi inst h => ?_
    rw [hL]
    interval_cases i <;> (simp [stP2, stInst] at h; subst h; simp [stP2, Block.locals])
  · intro σ; rw [hL]
    have key : ∀ (i : Nat) (a : Inst Nat), stP2.insts[i]? = some a → ∀ (j : Nat) (b : Inst Nat), stP2.insts[j]? = some b → i ∈ [0, 1, 2, 4, 3] → j ∈ [0, 1, 2, 4, 3] →
        [0, 1, 2, 4, 3].idxOf i ≤ [0, 1, 2, 4, 3].idxOf j → (a.lhs = true ∧ b.lhs = true ∨ a.ch ≠ none ∧ a.ch = b.ch) → place a.ph ≤ place b.ph := by
      refine stIdx (n := 5) rfl fun i hi a ha => ?_
      refine stIdx (n := 5) rfl fun j hj b hb => ?_
      interval_cases i <;> (simp [stP2, stInst] at ha; subst ha) <;> interval_cases j <;>
        (simp [stP2, stInst] at hb; subst hb; simp [place])
    have hp : ([0, 1, 2, 4, 3] : List Nat).Pairwise fun i j => i ∈ [0, 1, 2, 4, 3] ∧ j ∈ [0, 1, 2, 4, 3] ∧ ([0, 1, 2, 4, 3] : List Nat).idxOf i ≤ ([0, 1, 2, 4, 3] : List Nat).idxOf j := by decide
    exact hp.imp fun h a b ha hb hc => key _ a ha _ b hb h.1 h.2.1 h.2.2 hc
  · intro σ pre i post hp hall hi
    rw [hL] at hp
    obtain ⟨k, hk, rfl, hi'⟩ := stSplit hp
    have hk0 : k = 0 := by
      by_contra hk0
      have : 0 ∈ ([0, 1, 2, 4, 3] : List Nat).take k := by
        rw [List.mem_take_iff_getElem]; exact ⟨0, by simp at hk ⊢; omega, rfl⟩
      obtain ⟨x, hx, hr⟩ := hall 0 this
      simp [stP2, stInst] at hx
      subst hx
      cases hr
    subst hk0
    cases hi'
    exact ⟨_, rfl, rfl⟩
  · intro σ pre r post hp inst rule h hr
    exfalso
    have : inst.rule = none := stIdx (Q := fun _ inst => inst.rule = none) (n := 5) rfl (fun i hi inst h => by
        interval_cases i <;> (simp [stP2, stInst] at h; subst h; rfl)) r inst h
    rw [this] at hr; cases hr
  · intro σ pre i post hp e he j hj
    rw [hL] at hp
    obtain ⟨k, hk, rfl, hi⟩ := stSplit hp
    simp at hk
    interval_cases k <;> (simp at hi; subst hi; simp [Prod.rhs, stP2, Block.active] at he) <;>
      (subst he; simp at hj) <;> (subst hj; exact ⟨by decide, _, rfl, rfl, by simp [stInst]⟩)
  · intro σ pre i post hp hi r hr
    exfalso; simp [stP2, Block.tested] at hr
  · intro σ i hi
    obtain ⟨inst, h, hc⟩ := hi
    revert i inst
    refine stIdx (n := 5) rfl fun i hi inst h hc => ?_
    interval_cases i <;> (simp [stP2, stInst] at h; subst h) <;> first | (simp at hc; done) | (simp [Prod.rhs, stP2, Block.active]; done)
  · intro σ pre r post hp inst e pat t f h hr
    exfalso
    have : inst.rule = none := stIdx (Q := fun _ inst => inst.rule = none) (n := 5) rfl (fun i hi inst h => by
        interval_cases i <;> (simp [stP2, stInst] at h; subst h; rfl)) r inst h
    rw [this] at hr; cases hr

theorem stP1_scheduled : Scheduled stPhyla stP1 := by
  have hL := stP1_path
  refine ⟨?_, ?_, ?_, ?_, ?_, ?_, ?_, ?_, ?_, ?_, ?_, ?_, ?_, ?_⟩
  · simp [stP1, Prod.Shaped, Prod.IsRule, stInst]
  · intro σ; rw [hL]; decide
  · intro σ; rw [hL]; decide
  · intro σ x s h
    rw [hL]
    simp only [stPhyla, stP1] at h
    split at h <;> first | exact ⟨0, by decide, _, rfl, rfl, rfl⟩ | exact ⟨1, by decide, _, rfl, rfl, rfl⟩ | exact ⟨2, by decide, _, rfl, rfl, rfl⟩ | exact ⟨3, by decide, _, rfl, rfl, rfl⟩ | (exfalso; omega) | (cases h)
  · intro σ c k x s hk h
    rw [hL]
    rcases c with _ | c
    · have hk' : k = 1 := by simpa [stP1] using hk.symm
      subst hk'
      simp only [stPhyla] at h
      split at h <;> first | exact ⟨4, by decide, _, rfl, rfl, rfl⟩ | exact ⟨5, by decide, _, rfl, rfl, rfl⟩ | exact ⟨6, by decide, _, rfl, rfl, rfl⟩ | exact ⟨7, by decide, _, rfl, rfl, rfl⟩ | (exfalso; omega) | (cases h)
    · simp [stP1] at hk
  · intro σ r
    rw [hL]
    constructor
    · intro h; simp [stP1, Block.tested] at h
    · rintro ⟨h, x, hx, hr⟩
      exfalso
      simp only [List.mem_cons, List.not_mem_nil, or_false] at h
      rcases h with rfl | rfl | rfl | rfl | rfl | rfl | rfl | rfl <;> (simp [stP1, stInst] at hx; subst hx; cases hr)
  · intro σ i inst
    revert i inst
    refine stIdx (n := 8) rfl fun i hi inst h => ?_
    rw [hL]
    interval_cases i <;> (simp [stP1, stInst] at h; subst h; simp [stP1, Block.locals])
  · intro σ; rw [hL]
    have key : ∀ (i : Nat) (a : Inst Nat), stP1.insts[i]? = some a → ∀ (j : Nat) (b : Inst Nat), stP1.insts[j]? = some b → i ∈ [0, 4, 5, 1, 2, 6, 7, 3] → j ∈ [0, 4, 5, 1, 2, 6, 7, 3] →
        [0, 4, 5, 1, 2, 6, 7, 3].idxOf i ≤ [0, 4, 5, 1, 2, 6, 7, 3].idxOf j → (a.lhs = true ∧ b.lhs = true ∨ a.ch ≠ none ∧ a.ch = b.ch) → place a.ph ≤ place b.ph := by
      refine stIdx (n := 8) rfl fun i hi a ha => ?_
      refine stIdx (n := 8) rfl fun j hj b hb => ?_
      interval_cases i <;> (simp [stP1, stInst] at ha; subst ha) <;> interval_cases j <;>
        (simp [stP1, stInst] at hb; subst hb; simp [place])
    have hp : ([0, 4, 5, 1, 2, 6, 7, 3] : List Nat).Pairwise fun i j => i ∈ [0, 4, 5, 1, 2, 6, 7, 3] ∧ j ∈ [0, 4, 5, 1, 2, 6, 7, 3] ∧ ([0, 4, 5, 1, 2, 6, 7, 3] : List Nat).idxOf i ≤ ([0, 4, 5, 1, 2, 6, 7, 3] : List Nat).idxOf j := by decide
    exact hp.imp fun h a b ha hb hc => key _ a ha _ b hb h.1 h.2.1 h.2.2 hc
  · intro σ pre i post hp hall hi
    rw [hL] at hp
    obtain ⟨k, hk, rfl, hi'⟩ := stSplit hp
    have hk0 : k = 0 := by
      by_contra hk0
      have : 0 ∈ ([0, 4, 5, 1, 2, 6, 7, 3] : List Nat).take k := by
        rw [List.mem_take_iff_getElem]; exact ⟨0, by simp at hk ⊢; omega, rfl⟩
      obtain ⟨x, hx, hr⟩ := hall 0 this
      simp [stP1, stInst] at hx
      subst hx
      cases hr
    subst hk0
    cases hi'
    exact ⟨_, rfl, rfl⟩
  · intro σ pre r post hp inst rule h hr
    exfalso
    have : inst.rule = none := stIdx (Q := fun _ inst => inst.rule = none) (n := 8) rfl (fun i hi inst h => by
        interval_cases i <;> (simp [stP1, stInst] at h; subst h; rfl)) r inst h
    rw [this] at hr; cases hr
  · intro σ pre i post hp e he j hj
    rw [hL] at hp
    obtain ⟨k, hk, rfl, hi⟩ := stSplit hp
    simp at hk
    interval_cases k <;> (simp at hi; subst hi; simp [Prod.rhs, stP1, Block.active] at he) <;>
      (subst he; simp at hj) <;> (subst hj; exact ⟨by decide, _, rfl, rfl, by simp [stInst]⟩)
  · intro σ pre i post hp hi r hr
    exfalso; simp [stP1, Block.tested] at hr
  · intro σ i hi
    obtain ⟨inst, h, hc⟩ := hi
    revert i inst
    refine stIdx (n := 8) rfl fun i hi inst h hc => ?_
    interval_cases i <;> (simp [stP1, stInst] at h; subst h) <;> first | (simp at hc; done) | (simp [Prod.rhs, stP1, Block.active]; done)
  · intro σ pre r post hp inst e pat t f h hr
    exfalso
    have : inst.rule = none := stIdx (Q := fun _ inst => inst.rule = none) (n := 8) rfl (fun i hi inst h => by
        interval_cases i <;> (simp [stP1, stInst] at h; subst h; rfl)) r inst h
    rw [this] at hr; cases hr

theorem stP0_scheduled : Scheduled stPhyla stP0 := by
  have hL := stP0_path
  refine ⟨?_, ?_, ?_, ?_, ?_, ?_, ?_, ?_, ?_, ?_, ?_, ?_, ?_, ?_⟩
  · simp [stP0, Prod.Shaped, Prod.IsRule, stInst]
  · intro σ; rw [hL]; decide
  · intro σ; rw [hL]; decide
  · intro σ x s h
    rw [hL]
    simp only [stPhyla, stP0] at h
    split at h <;> first | exact ⟨0, by decide, _, rfl, rfl, rfl⟩ | exact ⟨1, by decide, _, rfl, rfl, rfl⟩ | (exfalso; omega) | (cases h)
  · intro σ c k x s hk h
    rw [hL]
    rcases c with _ | c
    · have hk' : k = 1 := by simpa [stP0] using hk.symm
      subst hk'
      simp only [stPhyla] at h
      split at h <;> first | exact ⟨2, by decide, _, rfl, rfl, rfl⟩ | exact ⟨3, by decide, _, rfl, rfl, rfl⟩ | exact ⟨4, by decide, _, rfl, rfl, rfl⟩ | exact ⟨5, by decide, _, rfl, rfl, rfl⟩ | (exfalso; omega) | (cases h)
    · simp [stP0] at hk
  · intro σ r
    rw [hL]
    constructor
    · intro h
      have : r = 6 := by
        cases hσ : σ 6 <;> simpa [stP0, Block.tested, stThen, stElse, hσ] using h
      subst this
      exact ⟨by decide, _, rfl, rfl⟩
    · rintro ⟨h, x, hx, hr⟩
      simp only [List.mem_cons, List.not_mem_nil, or_false] at h
      rcases h with rfl | rfl | rfl | rfl | rfl | rfl | rfl <;> simp [stP0, stInst] at hx <;> subst hx <;>
        first | (cases hr; done) | simp [stP0, Block.tested]
  · intro σ i inst
    revert i inst
    refine stIdx (n := 7) rfl fun i hi inst h => ?_
    rw [hL]
    interval_cases i <;> (simp [stP0, stInst] at h; subst h; simp [stP0, Block.locals])
  · intro σ; rw [hL]
    have key : ∀ (i : Nat) (a : Inst Nat), stP0.insts[i]? = some a → ∀ (j : Nat) (b : Inst Nat), stP0.insts[j]? = some b → i ∈ [0, 2, 3, 6, 4, 5, 1] → j ∈ [0, 2, 3, 6, 4, 5, 1] →
        [0, 2, 3, 6, 4, 5, 1].idxOf i ≤ [0, 2, 3, 6, 4, 5, 1].idxOf j → (a.lhs = true ∧ b.lhs = true ∨ a.ch ≠ none ∧ a.ch = b.ch) → place a.ph ≤ place b.ph := by
      refine stIdx (n := 7) rfl fun i hi a ha => ?_
      refine stIdx (n := 7) rfl fun j hj b hb => ?_
      interval_cases i <;> (simp [stP0, stInst] at ha; subst ha) <;> interval_cases j <;>
        (simp [stP0, stInst] at hb; subst hb; simp [place])
    have hp : ([0, 2, 3, 6, 4, 5, 1] : List Nat).Pairwise fun i j => i ∈ [0, 2, 3, 6, 4, 5, 1] ∧ j ∈ [0, 2, 3, 6, 4, 5, 1] ∧ ([0, 2, 3, 6, 4, 5, 1] : List Nat).idxOf i ≤ ([0, 2, 3, 6, 4, 5, 1] : List Nat).idxOf j := by decide
    exact hp.imp fun h a b ha hb hc => key _ a ha _ b hb h.1 h.2.1 h.2.2 hc
  · intro σ pre i post hp hall hi
    rw [hL] at hp
    obtain ⟨k, hk, rfl, hi'⟩ := stSplit hp
    have hk0 : k = 0 := by
      by_contra hk0
      have : 0 ∈ ([0, 2, 3, 6, 4, 5, 1] : List Nat).take k := by
        rw [List.mem_take_iff_getElem]; exact ⟨0, by simp at hk ⊢; omega, rfl⟩
      obtain ⟨x, hx, hr⟩ := hall 0 this
      simp [stP0, stInst] at hx
      subst hx
      cases hr
    subst hk0
    cases hi'
    exact ⟨_, rfl, rfl⟩
  · intro σ pre r post hp inst rule h hr
    rw [hL] at hp
    obtain ⟨k, hk, rfl, hi⟩ := stSplit hp
    simp at hk
    interval_cases k <;> (simp at hi; subst hi; simp [stP0, stInst] at h; subst h; simp at hr)
    subst hr
    intro j hj
    simp [Test.reads] at hj
    subst hj
    exact ⟨by decide, _, rfl, rfl, by simp [stInst]⟩
  · intro σ pre i post hp e he j hj
    rw [hL] at hp
    obtain ⟨k, hk, rfl, hi⟩ := stSplit hp
    simp at hk
    interval_cases k <;> (simp at hi; subst hi) <;> cases hσ : σ 6 <;>
      (simp [Prod.rhs, stP0, Block.active, stThen, stElse, hσ] at he) <;>
      (subst he; simp at hj) <;> (subst hj; exact ⟨by decide, _, rfl, rfl, by simp [stInst]⟩)
  · intro σ pre i post hp hi r hr t f hh he
    have h' : Block.Has (.cond 6 stThen stElse (.assign 1 ⟨[5], fun vs => vs.sum⟩ .nil)) r t f := hh
    have key : r = 6 ∧ t = stThen ∧ f = stElse := by
      cases h' with
      | here => exact ⟨rfl, rfl, rfl⟩
      | rest h => cases h with | assign h => cases h
      | inTrue h => cases h with | assign h => cases h
      | inFalse h => cases h with | assign h => cases h
    obtain ⟨rfl, rfl, rfl⟩ := key
    have hi4 : i = 4 := by
      obtain ⟨e, he⟩ := he
      cases hσ : σ 6 <;> simp [hσ, stThen, stElse, Block.own] at he <;> exact he.1
    subst hi4
    rw [hL] at hp
    obtain ⟨k, hk, rfl, hi'⟩ := stSplit hp
    simp at hk
    interval_cases k <;> simp at hi'
    decide
  · intro σ i hi
    obtain ⟨inst, h, hc⟩ := hi
    revert i inst
    refine stIdx (n := 7) rfl fun i hi inst h hc => ?_
    interval_cases i <;> (simp [stP0, stInst] at h; subst h) <;> first | (simp at hc; done) | (cases hσ : σ 6 <;> simp [Prod.rhs, stP0, Block.active, stThen, stElse, hσ]; done)
  · intro σ pre r post hp inst e pat t f h hr
    exfalso
    rw [hL] at hp
    obtain ⟨k, hk, rfl, hi⟩ := stSplit hp
    simp at hk
    interval_cases k <;> (simp at hi; subst hi; simp [stP0, stInst] at h; subst h; simp at hr)

theorem stValid : Valid stPhyla stProds := by
  refine ⟨stPhased, ?_, ?_, ?_⟩ <;> intro P hP <;> simp only [stProds, List.mem_cons, List.not_mem_nil, or_false] at hP <;>
    rcases hP with rfl | rfl | rfl
  · decide
  · decide
  · decide
  · exact stP0_described
  · exact stP1_described
  · exact stP2_described
  · exact stP0_scheduled
  · exact stP1_scheduled
  · exact stP2_scheduled

/-! ### The phyla of the refutation: `U` has no synthesised attribute -/

def stPhyla' : Phyla where
  sched p x := match p, x with
    | 0, 10 => some (-1) | 0, 11 => some 1
    | 1, 30 => some (-1)
    | _, _ => none
  implicit p x := match p, x with
    | 0, 10 => true | _, _ => false
  visits _ := 1

def stR0 : Prod Nat where
  insts := [stInst true none (-1) true (.node true) 10, stInst true none 1 false (.node false) 11,
    stInst false (some 0) (-1) false (.node false) 30]
  defaults := List.replicate 3 none
  body := .assign 2 ⟨[], fun _ => 4⟩ (.assign 1 ⟨[], fun _ => 9⟩ .nil)
  cto := .node 0 (.node 2 (.node 1 .nil))
  lhsPhy := 0
  kidPhy := [some 1]

def stR1 : Prod Nat where
  insts := [stInst true none (-1) true (.node false) 30, stInst false none 0 false (.loc false) 0]
  defaults := List.replicate 2 none
  body := .decl 1 (.assign 1 ⟨[0], fun vs => vs.sum⟩ .nil)
  cto := .node 0 (.node 1 .nil)
  lhsPhy := 1
  kidPhy := []

theorem stR0_path (σ : Nat → Bool) : stR0.path σ = [0, 2, 1] := by
  simp [Prod.path, stR0, Cto.path]

theorem stR1_path (σ : Nat → Bool) : stR1.path σ = [0, 1] := by
  simp [Prod.path, stR1, Cto.path]

theorem stR0_described : Described stPhyla' stR0 := by
  refine ⟨rfl, ?_, ?_, ?_, ?_, ?_, ?_, ?_, ?_⟩
  · refine stIdx (n := 3) rfl fun i hi inst h => ?_
    interval_cases i <;> (simp [stR0, stInst] at h; subst h; simp)
  · refine stIdx (n := 3) rfl fun i hi inst h => ?_
    interval_cases i <;> (simp [stR0, stInst] at h; subst h; simp [stPhyla', stR0])
  · intro i inst c h
    revert i inst
    refine stIdx (n := 3) rfl fun i hi inst h => ?_
    interval_cases i <;> (simp [stR0, stInst] at h; subst h; simp [stPhyla', stR0]) <;> (rintro rfl; simp)
  · refine stIdx (n := 3) rfl fun i hi inst h => ?_
    interval_cases i <;> (simp [stR0, stInst] at h; subst h; simp)
  · intro i j a b hi hj
    revert j b
    revert i a
    refine stIdx (n := 3) rfl fun i hi a ha => ?_
    refine stIdx (n := 3) rfl fun j hj b hb => ?_
    interval_cases i <;> (simp [stR0, stInst] at ha; subst ha) <;> interval_cases j <;> (simp [stR0, stInst] at hb; subst hb; simp)
  · intro r t f h
    have h' : Block.Has (.assign 2 _ (.assign 1 _ .nil)) r t f := h
    cases h' with | assign h => cases h with | assign h => cases h
  · intro σ q h
    simp [stR0, Block.active] at h
    rcases h with rfl | rfl <;> decide
  · intro σ
    simp [stR0, Block.active]

theorem stR1_described : Described stPhyla' stR1 := by
  refine ⟨rfl, ?_, ?_, ?_, ?_, ?_, ?_, ?_, ?_⟩
  · refine stIdx (n := 2) rfl fun i hi inst h => ?_
    interval_cases i <;> (simp [stR1, stInst] at h; subst h; simp)
  · refine stIdx (n := 2) rfl fun i hi inst h => ?_
    interval_cases i <;> (simp [stR1, stInst] at h; subst h; simp [stPhyla', stR1])
  · intro i inst c h
    revert i inst
    refine stIdx (n := 2) rfl fun i hi inst h => ?_
    interval_cases i <;> (simp [stR1, stInst] at h; subst h; simp [stPhyla', stR1])
  · refine stIdx (n := 2) rfl fun i hi inst h => ?_
    interval_cases i <;> (simp [stR1, stInst] at h; subst h; simp)
  · intro i j a b hi hj
    revert j b
    revert i a
    refine stIdx (n := 2) rfl fun i hi a ha => ?_
    refine stIdx (n := 2) rfl fun j hj b hb => ?_
    interval_cases i <;> (simp [stR1, stInst] at ha; subst ha) <;> interval_cases j <;> (simp [stR1, stInst] at hb; subst hb; simp)
  · intro r t f h
    have h' : Block.Has (.decl 1 (.assign 1 _ .nil)) r t f := h
    cases h' with | decl h => cases h with | assign h => cases h
  · intro σ q h
    simp [stR1, Block.active] at h
    subst h; decide
  · intro σ
    simp [stR1, Block.active]

theorem stR0_scheduled : Scheduled stPhyla' stR0 := by
  have hL := stR0_path
  refine ⟨?_, ?_, ?_, ?_, ?_, ?_, ?_, ?_, ?_, ?_, ?_, ?_, ?_, ?_⟩
  · simp [stR0, Prod.Shaped, Prod.IsRule, stInst]
  · intro σ; rw [hL]; decide
  · intro σ; rw [hL]; decide
  · intro σ x s h
    rw [hL]
    simp only [stPhyla', stR0] at h
    split at h <;> first | exact ⟨0, by decide, _, rfl, rfl, rfl⟩ | exact ⟨1, by decide, _, rfl, rfl, rfl⟩ | (exfalso; omega) | (cases h)
  · intro σ c k x s hk h
    rw [hL]
    rcases c with _ | c
    · have hk' : k = 1 := by simpa [stR0] using hk.symm
      subst hk'
      simp only [stPhyla'] at h
      split at h <;> first | exact ⟨2, by decide, _, rfl, rfl, rfl⟩ | (exfalso; omega) | (cases h)
    · simp [stR0] at hk
  · intro σ r
    rw [hL]
    constructor
    · intro h; simp [stR0, Block.tested] at h
    · rintro ⟨h, x, hx, hr⟩
      exfalso
      simp only [List.mem_cons, List.not_mem_nil, or_false] at h
      rcases h with rfl | rfl | rfl <;> (simp [stR0, stInst] at hx; subst hx; cases hr)
  · intro σ i inst
    revert i inst
    refine stIdx (n := 3) rfl fun i hi inst h => ?_
    rw [hL]
    interval_cases i <;> (simp [stR0, stInst] at h; subst h; simp [stR0, Block.locals])
  · intro σ; rw [hL]
    have key : ∀ (i : Nat) (a : Inst Nat), stR0.insts[i]? = some a → ∀ (j : Nat) (b : Inst Nat), stR0.insts[j]? = some b → i ∈ [0, 2, 1] → j ∈ [0, 2, 1] →
        [0, 2, 1].idxOf i ≤ [0, 2, 1].idxOf j → (a.lhs = true ∧ b.lhs = true ∨ a.ch ≠ none ∧ a.ch = b.ch) → place a.ph ≤ place b.ph := by
      refine stIdx (n := 3) rfl fun i hi a ha => ?_
      refine stIdx (n := 3) rfl fun j hj b hb => ?_
      interval_cases i <;> (simp [stR0, stInst] at ha; subst ha) <;> interval_cases j <;>
        (simp [stR0, stInst] at hb; subst hb; simp [place])
    have hp : ([0, 2, 1] : List Nat).Pairwise fun i j => i ∈ [0, 2, 1] ∧ j ∈ [0, 2, 1] ∧ ([0, 2, 1] : List Nat).idxOf i ≤ ([0, 2, 1] : List Nat).idxOf j := by decide
    exact hp.imp fun h a b ha hb hc => key _ a ha _ b hb h.1 h.2.1 h.2.2 hc
  · intro σ pre i post hp hall hi
    rw [hL] at hp
    obtain ⟨k, hk, rfl, hi'⟩ := stSplit hp
    have hk0 : k = 0 := by
      by_contra hk0
      have : 0 ∈ ([0, 2, 1] : List Nat).take k := by
        rw [List.mem_take_iff_getElem]; exact ⟨0, by simp at hk ⊢; omega, rfl⟩
      obtain ⟨x, hx, hr⟩ := hall 0 this
      simp [stR0, stInst] at hx
      subst hx
      cases hr
    subst hk0
    cases hi'
    exact ⟨_, rfl, rfl⟩
  · intro σ pre r post hp inst rule h hr
    exfalso
    have : inst.rule = none := stIdx (Q := fun _ inst => inst.rule = none) (n := 3) rfl (fun i hi inst h => by
        interval_cases i <;> (simp [stR0, stInst] at h; subst h; rfl)) r inst h
    rw [this] at hr; cases hr
  · intro σ pre i post hp e he j hj
    rw [hL] at hp
    obtain ⟨k, hk, rfl, hi⟩ := stSplit hp
    simp at hk
    interval_cases k <;> (simp at hi; subst hi; simp [Prod.rhs, stR0, Block.active] at he) <;>
      (subst he; simp at hj) <;> (subst hj; exact ⟨by decide, _, rfl, rfl, by simp [stInst]⟩)
  · intro σ pre i post hp hi r hr
    exfalso; simp [stR0, Block.tested] at hr
  · intro σ i hi
    obtain ⟨inst, h, hc⟩ := hi
    revert i inst
    refine stIdx (n := 3) rfl fun i hi inst h hc => ?_
    interval_cases i <;> (simp [stR0, stInst] at h; subst h) <;> first | (simp at hc; done) | (simp [Prod.rhs, stR0, Block.active]; done)
  · intro σ pre r post hp inst e pat t f h hr
    exfalso
    have : inst.rule = none := stIdx (Q := fun _ inst => inst.rule = none) (n := 3) rfl (fun i hi inst h => by
        interval_cases i <;> (simp [stR0, stInst] at h; subst h; rfl)) r inst h
    rw [this] at hr; cases hr

theorem stR1_scheduled : Scheduled stPhyla' stR1 := by
  have hL := stR1_path
  refine ⟨?_, ?_, ?_, ?_, ?_, ?_, ?_, ?_, ?_, ?_, ?_, ?_, ?_, ?_⟩
  · simp [stR1, Prod.Shaped, Prod.IsRule, stInst]
  · intro σ; rw [hL]; decide
  · intro σ; rw [hL]; decide
  · intro σ x s h
    rw [hL]
    simp only [stPhyla', stR1] at h
    split at h <;> first | exact ⟨0, by decide, _, rfl, rfl, rfl⟩ | (exfalso; omega) | (cases h)
  · intro σ c k x s hk h
    rw [hL]
    simp [stR1] at hk
  · intro σ r
    rw [hL]
    constructor
    · intro h; simp [stR1, Block.tested] at h
    · rintro ⟨h, x, hx, hr⟩
      exfalso
      simp only [List.mem_cons, List.not_mem_nil, or_false] at h
      rcases h with rfl | rfl <;> (simp [stR1, stInst] at hx; subst hx; cases hr)
  · intro σ i inst
    revert i inst
    refine stIdx (n := 2) rfl fun i hi inst h => ?_
    rw [hL]
    interval_cases i <;> (simp [stR1, stInst] at h; subst h; simp [stR1, Block.locals])
  · intro σ; rw [hL]
    have key : ∀ (i : Nat) (a : Inst Nat), stR1.insts[i]? = some a → ∀ (j : Nat) (b : Inst Nat), stR1.insts[j]? = some b → i ∈ [0, 1] → j ∈ [0, 1] →
        [0, 1].idxOf i ≤ [0, 1].idxOf j → (a.lhs = true ∧ b.lhs = true ∨ a.ch ≠ none ∧ a.ch = b.ch) → place a.ph ≤ place b.ph := by
      refine stIdx (n := 2) rfl fun i hi a ha => ?_
      refine stIdx (n := 2) rfl fun j hj b hb => ?_
      interval_cases i <;> (simp [stR1, stInst] at ha; subst ha) <;> interval_cases j <;>
        (simp [stR1, stInst] at hb; subst hb; simp [place])
    have hp : ([0, 1] : List Nat).Pairwise fun i j => i ∈ [0, 1] ∧ j ∈ [0, 1] ∧ ([0, 1] : List Nat).idxOf i ≤ ([0, 1] : List Nat).idxOf j := by decide
    exact hp.imp fun h a b ha hb hc => key _ a ha _ b hb h.1 h.2.1 h.2.2 hc
  · intro σ pre i post hp hall hi
    rw [hL] at hp
    obtain ⟨k, hk, rfl, hi'⟩ := stSplit hp
    have hk0 : k = 0 := by
      by_contra hk0
      have : 0 ∈ ([0, 1] : List Nat).take k := by
        rw [List.mem_take_iff_getElem]; exact ⟨0, by simp at hk ⊢; omega, rfl⟩
      obtain ⟨x, hx, hr⟩ := hall 0 this
      simp [stR1, stInst] at hx
      subst hx
      cases hr
    subst hk0
    cases hi'
    exact ⟨_, rfl, rfl⟩
  · intro σ pre r post hp inst rule h hr
    exfalso
    have : inst.rule = none := stIdx (Q := fun _ inst => inst.rule = none) (n := 2) rfl (fun i hi inst h => by
        interval_cases i <;> (simp [stR1, stInst] at h; subst h; rfl)) r inst h
    rw [this] at hr; cases hr
  · intro σ pre i post hp e he j hj
    rw [hL] at hp
    obtain ⟨k, hk, rfl, hi⟩ := stSplit hp
    simp at hk
    interval_cases k <;> (simp at hi; subst hi; simp [Prod.rhs, stR1, Block.active] at he) <;>
      (subst he; simp at hj) <;> (subst hj; exact ⟨by decide, _, rfl, rfl, by simp [stInst]⟩)
  · intro σ pre i post hp hi r hr
    exfalso; simp [stR1, Block.tested] at hr
  · intro σ i hi
    obtain ⟨inst, h, hc⟩ := hi
    revert i inst
    refine stIdx (n := 2) rfl fun i hi inst h hc => ?_
    interval_cases i <;> (simp [stR1, stInst] at h; subst h) <;> first | (simp at hc; done) | (simp [Prod.rhs, stR1, Block.active]; done)
  · intro σ pre r post hp inst e pat t f h hr
    exfalso
    have : inst.rule = none := stIdx (Q := fun _ inst => inst.rule = none) (n := 2) rfl (fun i hi inst h => by
        interval_cases i <;> (simp [stR1, stInst] at h; subst h; rfl)) r inst h
    rw [this] at hr; cases hr

/-! ### The theorems on the examples -/

def stTree : Tree := .node 0 [.node 1 [.node 2 []]]

theorem stTree_ty : HasTy stProds stTree (some 0) := by
  refine .node (P := stP0) rfl rfl ?_
  intro c k o hk ho
  rcases c with _ | c
  · cases hk; cases ho
    refine .node (P := stP1) rfl rfl ?_
    intro c k o hk ho
    rcases c with _ | c
    · cases hk; cases ho
      refine .node (P := stP2) rfl rfl ?_
      intro c k o hk ho
      cases hk
    · cases hk
  · cases hk

/-- The hypotheses of `C60_evaluates` are met by the example, and the evaluation computes something: the root gets
`(3 + 7 * 2) + 100`: `T` synthesises 6, so 7 is handed down, doubled on the way. -/
example : Valid stPhyla stProds ∧ HasTy stProds stTree (some 0) ∧ (∀ P ∈ stProds, some 0 ∉ P.kidPhy) ∧
    ∃ codes st, stProds.mapM (fun P => dumpVisits P 30) = .ok codes ∧
      visitAll stProds codes 4 0 stTree [1] [] = .ok st ∧ Static.get st ([], .attr 11) = some 117 := by
  refine ⟨stValid, stTree_ty, by decide, ?_⟩
  exact ⟨_, _, rfl, rfl, rfl⟩

/-- Without the requirement that something is synthesised in every visit the claim fails: a child whose phylum has
no synthesised attribute is never visited (static-impl.cc:137-139 changes the phase of a child at a synthesised
attribute only), and its locals and its subtree are never evaluated. -/
theorem C60_inherited_only_refuted : ∃ (ph : Phyla) (prods : List (Prod Nat)) (t : Tree) (codes : List (List (Code Nat))) (st : Store Nat),
    (∀ p x s, ph.sched p x = some s → s ≠ 0 ∧ s.natAbs ≤ ph.visits p) ∧
    (∀ P ∈ prods, Described ph P) ∧ (∀ P ∈ prods, Scheduled ph P) ∧ HasTy prods t (some 0) ∧ (∀ P ∈ prods, some 0 ∉ P.kidPhy) ∧
    prods.mapM (fun P => dumpVisits P 30) = .ok codes ∧ visitAll prods codes 4 0 t [1] [] = .ok st ∧ ¬ Solves prods t (Static.get st) := by
  refine ⟨stPhyla', [stR0, stR1], .node 0 [.node 1 []], _, _, ?_, ?_, ?_, ?_, by decide, rfl, rfl, ?_⟩
  · intro p x s h
    simp only [stPhyla'] at h ⊢
    split at h <;> cases h <;> simp
  · intro P hP
    simp only [List.mem_cons, List.not_mem_nil, or_false] at hP
    rcases hP with rfl | rfl
    · exact stR0_described
    · exact stR1_described
  · intro P hP
    simp only [List.mem_cons, List.not_mem_nil, or_false] at hP
    rcases hP with rfl | rfl
    · exact stR0_scheduled
    · exact stR1_scheduled
  · refine .node (P := stR0) rfl rfl ?_
    intro c k o hk ho
    rcases c with _ | c
    · cases hk; cases ho
      refine .node (P := stR1) rfl rfl ?_
      intro c k o hk ho
      cases hk
    · cases hk
  · intro h
    obtain ⟨P, hP, σ, _, hval⟩ := h [0] 1 [] (.kid .root rfl)
    cases hP
    obtain ⟨e, v, _, _, hv⟩ := hval 1 ⟨_, rfl, .inr (.inr ⟨rfl, rfl, by simp [stR1, Block.locals]⟩)⟩
    cases hv

/-- Nor does it hold if nodes of the start phylum can be inside a tree: `visit()` visits every node of the start
phylum, inner ones first, when their inherited attributes have not been set. -/
theorem C60_recursive_start_refuted : ∃ (t : Tree) (codes : List (List (Code Nat))) (init : Store Nat),
    Valid stPhyla stProds ∧ HasTy stProds t (some 1) ∧ stProds.mapM (fun P => dumpVisits P 30) = .ok codes ∧
    (∀ x s, stPhyla.sched 1 x = some s → s < 0 → stPhyla.implicit 1 x = false → ([], Key.attr x) ∈ init.map (·.1)) ∧
    (∃ st, visitRoot stProds codes 4 t [1, 2] init = .ok st) ∧ visitAll stProds codes 4 1 t [1, 2] init = .stop := by
  refine ⟨.node 1 [.node 2 []], _, [(([], .attr 22), 1)], stValid, ?_, rfl, ?_, ⟨_, rfl⟩, rfl⟩
  · refine .node (P := stP1) rfl rfl ?_
    intro c k o hk ho
    rcases c with _ | c
    · cases hk; cases ho
      refine .node (P := stP2) rfl rfl ?_
      intro c k o hk ho
      cases hk
    · cases hk
  · intro x s h hs hi
    simp only [stPhyla] at h hi
    split at h <;> first | (cases h; done) | (have := Option.some.inj h; subst this; simp_all)

/-- C60. A block with several assignments of one instance (contributions to a collection): only the last one is
ever printed. -/
theorem C60_contributions_refuted {V : Type} (P : Prod V) (i : Nat) (hi : i < P.insts.length) (e₁ e₂ : Expr V) (arr : Asg V) :
    makeAssignment P (.assign i e₁ (.assign i e₂ .nil)) arr = .ok (arr.set i (some e₂)) := by
  simp only [makeAssignment, assignLoop]
  rw [if_neg (by omega), if_neg (by omega)]
  simp

/-! ### The selection of the procedure -/

/-- C60. If every constructor of the phylum has a top-level match, `visit_n_ph(node)` calls the procedure of the
constructor of the node, in both backends; `cons` are the constructors of the module in order, those of the phylum
are `cons.filter mine`. -/
theorem C60_dispatch {cons matched : List Nat} (mine : Nat → Bool) (hc : cons.Nodup) (hm : matched.Nodup)
    (h : ∀ d, d ∈ matched ↔ d ∈ cons.filter mine) :
    ∃ index, instanceIndex cons matched = some index ∧
      ∀ con ∈ cons.filter mine, dispatchCpp (cons.filter mine) index matched.length con = some con ∧ dispatchScala index con = some con := by
  have hl : cons.filter (fun d => matched.contains d) = cons.filter mine := by
    apply List.filter_congr
    intro d hd
    have := h d
    rw [List.mem_filter] at this
    cases hmine : mine d with
    | true => simp [this, hd, hmine]
    | false =>
      have : d ∉ matched := by rw [this]; simp [hmine]
      simp [this]
  have hnd : (cons.filter mine).Nodup := hc.filter _
  have hlen : (cons.filter mine).length = matched.length :=
    ((List.perm_ext_iff_of_nodup hnd hm).2 fun d => (h d).symm).length_eq
  refine ⟨(cons.filter mine).zipIdx, ?_, ?_⟩
  · unfold instanceIndex
    simp only [hl, hlen, if_true]
  · intro con hcon
    generalize cons.filter mine = l at *
    have hidx := List.idxOf_lt_length_iff.2 hcon
    have key : ((l.zipIdx).find? fun e => e.2 = l.idxOf con).map (·.1) = some con := by
      have hget : (l.zipIdx)[l.idxOf con]? = some (con, l.idxOf con) := by
        simp [hidx]
      cases hf : (l.zipIdx).find? fun e => e.2 = l.idxOf con with
      | none =>
        have := List.find?_eq_none.1 hf _ (List.mem_of_getElem? hget)
        simp at this
      | some e =>
        obtain ⟨x, k⟩ := e
        have h1 := List.find?_some hf
        have h2 := List.mem_of_find?_eq_some hf
        simp only [decide_eq_true_eq] at h1
        subst h1
        obtain ⟨_, hlt, hx⟩ := List.mem_zipIdx h2
        simp at hx
        simp [hx]
    constructor
    · unfold dispatchCpp
      simp only
      rw [if_pos (by omega)]
      exact key
    · unfold dispatchScala
      cases hf : (l.zipIdx).find? fun e => e.1 = con with
      | none =>
        have hget : (l.zipIdx)[l.idxOf con]? = some (con, l.idxOf con) := by
          simp [hidx]
        have := List.find?_eq_none.1 hf _ (List.mem_of_getElem? hget)
        simp at this
      | some e =>
        obtain ⟨x, k⟩ := e
        have h1 := List.find?_some hf
        have h2 := List.mem_of_find?_eq_some hf
        simp only [decide_eq_true_eq] at h1
        subst h1
        obtain ⟨_, hlt, hx⟩ := List.mem_zipIdx h2
        simp only [Nat.sub_zero, Nat.zero_add] at hlt hx
        have hk : k = l.idxOf x := by rw [hx]; exact (hnd.idxOf_getElem k hlt).symm
        simp only
        rw [hk]; exact key

example : [3, 4, 5, 6].Nodup ∧ [6, 4].Nodup ∧ ∀ d, d ∈ [6, 4] ↔ d ∈ [3, 4, 5, 6].filter (fun d => d % 2 == 0) := by
  refine ⟨by decide, by decide, fun d => ?_⟩
  simp
  omega

/-- If a constructor of the phylum has no top-level match, the C++ `switch` (over numbers of constructors with a
match) takes the wrong procedure: a node of the second constructor is visited as if it were of the third. The Scala
backend is right. -/
theorem C60_dispatch_refuted : ∃ (cons matched : List Nat) (index : List (Nat × Nat)), cons.Nodup ∧ matched.Nodup ∧ (∀ d ∈ matched, d ∈ cons) ∧
    instanceIndex cons matched = some index ∧ dispatchCpp cons index matched.length 1 = some 2 ∧ 1 ∉ matched ∧
    dispatchCpp cons index matched.length 2 = none ∧ dispatchScala index 2 = some 2 :=
  ⟨[0, 1, 2], [0, 2], [(0, 0), (2, 1)], by decide, by decide, by decide, by decide, by decide, by decide, by decide, by decide⟩

/-! ### Where the total orders come from -/

/-- C60. The total order `schedule_rest` computes from a dependency graph that has the dependencies of the
production meets what the generator needs (except that everything is defined, and that case statements are not
interleaved, which no dependency can guarantee). -/
theorem C60_schedules {V : Type} {ph : Phyla} {P : Prod V} {g : Aps.Dnc.Aug} {oi : List OInst} (hd : Described ph P)
    (hG : Graphed ph P g oi) (h : scheduleAug g oi = .ok P.cto)
    (hdef : ∀ (σ : Nat → Bool) i, P.Output σ i → P.rhs σ i ≠ none)
    (hcases : ∀ (σ : Nat → Bool) pre r post, P.path σ = pre ++ r :: post → ∀ (inst : Inst V) (e : Expr V) (pat : V → Bool)
      (t : Block V) (f : Option (Block V)), P.insts[r]? = some inst → inst.rule = some ⟨.mat false e pat, t, f⟩ →
      P.caseExpr pre = some e) : Scheduled ph P :=
  scheduled_of_graph hd hG h hdef hcases

/-- the dependencies of the first production of the example: the conditional is number 0, its instance 6 -/
def stEdges : List (Nat × Nat) := [(0, 1), (2, 3), (2, 4), (2, 5), (3, 4), (3, 5), (4, 5), (3, 6), (6, 4), (5, 1)]

def stGraph : Aps.Dnc.Aug :=
  { n := 7, attrs := [], links := [], wl := ⟨[], 100⟩
    cells := (List.range 49).map fun k => if (k / 7, k % 7) ∈ stEdges then [⟨k, k / 7, k % 7, ⟨0, 0⟩, 3⟩] else [] }

def stOInsts : List OInst := List.replicate 6 ⟨⟨0, 0⟩, none⟩ ++ [⟨⟨0, 0⟩, some 0⟩]

theorem stRuleOf {i k : Nat} (h : ruleOf stOInsts i = some k) : i = 6 ∧ k = 0 := by
  rcases i with _ | _ | _ | _ | _ | _ | _ | i <;> simp [ruleOf, stOInsts] at h ⊢ <;> omega

theorem stCondOf (i : Nat) : condOf stOInsts i = ⟨0, 0⟩ := by
  rcases i with _ | _ | _ | _ | _ | _ | _ | i <;> rfl

theorem stDep {i j : Nat} (h : (i, j) ∈ stEdges) (τ : Nat → Bool) : DepUnder stGraph τ i j := by
  have hb : i < 7 ∧ j < 7 := by
    have : ∀ e ∈ stEdges, e.1 < 7 ∧ e.2 < 7 := by decide
    exact this _ h
  refine ⟨⟨i * 7 + j, i, j, ⟨0, 0⟩, 3⟩, ?_, sat_nil τ⟩
  have h1 : (i * 7 + j) / 7 = i := by omega
  have h2 : (i * 7 + j) % 7 = j := by omega
  have h3 : i * 7 + j < 49 := by omega
  simp only [stGraph, Aps.Dnc.Aug.cell, List.getElem?_map, List.getElem?_range h3, Option.map_some, h1, h2, if_pos h, Option.getD_some,
    List.mem_singleton]

theorem stActive (σ : Nat → Bool) (i : Nat) : Active stOInsts σ i := by
  unfold Active
  rw [stCondOf]
  exact sat_nil _

theorem stGraphed : Graphed stPhyla stP0 stGraph stOInsts := by
  refine ⟨rfl, rfl, ?_, ?_, ?_, ?_, ?_, ?_, ?_, ?_, ?_, ?_, ?_, ?_, ?_, ?_⟩
  · intro i
    constructor
    · intro h
      obtain ⟨k, hk⟩ := Option.isSome_iff_exists.1 h
      obtain ⟨rfl, _⟩ := stRuleOf hk
      exact ⟨_, rfl, rfl⟩
    · rintro ⟨inst, h, hr⟩
      revert i inst
      refine stIdx (n := 7) rfl fun i hi inst h hr => ?_
      interval_cases i <;> (simp [stP0, stInst] at h; subst h) <;> first | (simp at hr; done) | rfl
  · intro i k h; have := (stRuleOf h).2; omega
  · intro a b k ha hb; rw [(stRuleOf ha).1, (stRuleOf hb).1]
  · intro i hi k hb
    rw [stCondOf] at hb
    rcases hb with h | h <;> simp at h
  · intro i inst _ _; exact stCondOf i
  · intro σ r hr
    have : r = 6 := by
      obtain ⟨inst, h, hr⟩ := hr
      revert r inst
      refine stIdx (n := 7) rfl fun i hi inst h hr => ?_
      interval_cases i <;> (simp [stP0, stInst] at h; subst h) <;> first | (simp at hr; done) | rfl
    subst this
    simp [stP0, Block.tested, stActive]
  · intro σ
    refine stIdx (n := 7) rfl fun i hi inst h => ?_
    interval_cases i <;> (simp [stP0, stInst] at h; subst h; simp)
  · intro x s h
    simp only [stPhyla, stP0] at h
    split at h <;> first | exact ⟨0, _, rfl, rfl, rfl⟩ | exact ⟨1, _, rfl, rfl, rfl⟩ | (exfalso; omega) | (cases h)
  · intro c k x s hk h
    rcases c with _ | c
    · cases hk
      simp only [stPhyla, stP0] at h
      split at h <;> first | exact ⟨2, _, rfl, rfl, rfl⟩ | exact ⟨3, _, rfl, rfl, rfl⟩ | exact ⟨4, _, rfl, rfl, rfl⟩ | exact ⟨5, _, rfl, rfl, rfl⟩ | (exfalso; omega) | (cases h)
    · cases hk
  · intro i j a b hi hj
    revert j b
    revert i a
    refine stIdx (n := 7) rfl fun i hi a ha => ?_
    refine stIdx (n := 7) rfl fun j hj b hb => ?_
    interval_cases i <;> (simp [stP0, stInst] at ha; subst ha) <;> interval_cases j <;> (simp [stP0, stInst] at hb; subst hb; simp [place]) <;>
      first | exact stDep (by decide) | done
  · refine ⟨0, by decide, ?_, rfl, ?_, ?_⟩
    · intro j
      by_cases hj : j < 7
      · interval_cases j <;> rfl
      · unfold Aps.Dnc.Aug.cell
        rw [List.getElem?_eq_none]
        · rfl
        · simp [stGraph]; omega
    · rintro ⟨inst, h, hr⟩
      simp [stP0, stInst] at h
      subst h
      cases hr
    · intro i hi _
      have : i = 0 := by omega
      subst this
      exact ⟨_, rfl, rfl⟩
  · intro σ r inst rule h hr _ j hj
    have : r = 6 ∧ rule.test.reads = [3] := by
      revert r inst
      refine stIdx (n := 7) rfl fun i hi inst h hr => ?_
      interval_cases i <;> (simp [stP0, stInst] at h; subst h) <;> first | (simp at hr; done) | (cases hr; intro _; exact ⟨rfl, rfl⟩)
    obtain ⟨rfl, h2⟩ := this
    rw [h2] at hj
    simp at hj
    subst hj
    exact ⟨⟨_, rfl, rfl, by simp [stInst]⟩, stActive _ _, stDep (by decide) _⟩
  · intro σ i e he _ j hj
    have : (i = 4 ∧ j = 3) ∨ (i = 1 ∧ j = 5) := by
      have hi : i = 4 ∨ i = 1 := by
        by_contra hne
        push Not at hne
        have : stP0.defaults[i]? = some none ∨ stP0.defaults[i]? = none := by
          by_cases hi : i < 7
          · left; interval_cases i <;> rfl
          · right; rw [List.getElem?_eq_none]; simp [stP0]; omega
        cases hσ : σ 6 <;> simp [Prod.rhs, stP0, Block.active, stThen, stElse, hσ, hne.1.symm, hne.2.symm] at he this <;> (rcases this with h | h <;> simp [h] at he)
      rcases hi with rfl | rfl
      · cases hσ : σ 6 <;> simp [Prod.rhs, stP0, Block.active, stThen, stElse, hσ] at he <;> subst he <;> simp at hj
        exact .inl ⟨rfl, hj⟩
      · cases hσ : σ 6 <;> simp [Prod.rhs, stP0, Block.active, stThen, stElse, hσ] at he <;> subst he <;> simp at hj <;> exact .inr ⟨rfl, hj⟩
    rcases this with ⟨rfl, rfl⟩ | ⟨rfl, rfl⟩
    · exact ⟨⟨_, rfl, rfl, by simp [stInst]⟩, stActive _ _, stDep (by decide) _⟩
    · exact ⟨⟨_, rfl, rfl, by simp [stInst]⟩, stActive _ _, stDep (by decide) _⟩
  · intro σ i _ _ r hr t f hh he
    have h' : Block.Has (.cond 6 stThen stElse (.assign 1 ⟨[5], fun vs => vs.sum⟩ .nil)) r t f := hh
    cases h' with
    | here =>
      obtain ⟨e, he⟩ := he
      have : i = 4 := by
        cases hσ : σ 6 <;> simp [hσ, stThen, stElse, Block.own] at he <;> exact he.1
      subst this
      exact stDep (by decide) _
    | rest h => cases h with | assign h => cases h
    | inTrue h => cases h with | assign h => cases h
    | inFalse h => cases h with | assign h => cases h

/-- The hypotheses of `C60_schedules` are met by the first production of the example. -/
example : Described stPhyla stP0 ∧ Graphed stPhyla stP0 stGraph stOInsts ∧ scheduleAug stGraph stOInsts = .ok stP0.cto :=
  ⟨stP0_described, stGraphed, by decide +kernel⟩

end Aps.Props
