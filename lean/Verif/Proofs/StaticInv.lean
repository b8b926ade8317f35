import Verif.Proofs.StaticPos
set_option linter.unusedVariables false
/-!
# Static visit procedures: what has been assigned after some visits
-/
namespace Aps.Static

open Aps.Oag

variable {V : Type}

def keys (st : Store V) : List Slot := st.map (·.1)

theorem keys_append (s t : Store V) : keys (s ++ t) = keys s ++ keys t := by simp [keys]

theorem get_none {st : Store V} {s : Slot} (h : s ∉ keys st) : get st s = none := by
  unfold get
  rw [List.find?_eq_none.2, Option.map_none]
  intro w hw
  simp only [decide_eq_true_eq]
  rintro rfl
  exact h (List.mem_map.2 ⟨w, hw, rfl⟩)

theorem get_some {st : Store V} {s : Slot} (h : s ∈ keys st) : ∃ v, get st s = some v := by
  unfold get
  obtain ⟨w, hw, rfl⟩ := List.mem_map.1 h
  cases hf : st.find? fun w' => w'.1 = w.1 with
  | none => have := List.find?_eq_none.1 hf w hw; simp at this
  | some w' => exact ⟨w'.2, rfl⟩

theorem mem_of_get {st : Store V} {s : Slot} {v : V} (h : get st s = some v) : s ∈ keys st := by
  by_contra hn
  rw [get_none hn] at h; cases h

theorem get_append {new st : Store V} {s : Slot} (h : s ∉ keys new) : get (new ++ st) s = get st s := by
  unfold get
  rw [List.find?_append, List.find?_eq_none.2]
  · rfl
  · intro w hw
    simp only [decide_eq_true_eq]
    rintro rfl
    exact h (List.mem_map.2 ⟨w, hw, rfl⟩)

theorem get_cons (s : Slot) (v : V) (st : Store V) : get ((s, v) :: st) s = some v := by simp [get]

theorem readAll_frame {P : Prod V} {a : Addr} {new st : Store V} (hn : ∀ s ∈ keys new, s ∉ keys st) :
    ∀ {js : List Nat} {vs : List V}, readAll P a st js = .ok vs → readAll P a (new ++ st) js = .ok vs := by
  intro js
  induction js with
  | nil => intro vs h; exact h
  | cons j js ih =>
    intro vs h
    simp only [readAll] at h ⊢
    cases hj : P.insts[j]? with
    | none => rw [hj] at h; cases h
    | some inst =>
      rw [hj] at h
      simp only at h ⊢
      cases hg : get st (inst.slot a) with
      | none => rw [hg] at h; cases h
      | some v =>
        rw [hg] at h
        simp only at h
        rw [get_append fun hm => hn _ hm (mem_of_get hg), hg]
        simp only
        obtain ⟨vs', h1, h2⟩ := Res.bind_eq_ok.1 h
        rw [ih h1]
        exact h2

theorem readAll_ok {P : Prod V} {a : Addr} {st : Store V} {js : List Nat}
    (h : ∀ j ∈ js, ∃ inst, P.insts[j]? = some inst ∧ inst.slot a ∈ keys st) : ∃ vs, readAll P a st js = .ok vs := by
  induction js with
  | nil => exact ⟨[], rfl⟩
  | cons j js ih =>
    obtain ⟨vs, hvs⟩ := ih fun j hj => h j (List.mem_cons_of_mem _ hj)
    obtain ⟨inst, hj, hk⟩ := h j List.mem_cons_self
    obtain ⟨v, hv⟩ := get_some hk
    exact ⟨v :: vs, by simp only [readAll, hj, hv, hvs]; rfl⟩

/-- the outcome of a test when it is run -/
def Prod.test (P : Prod V) (a : Addr) (st : Store V) : Test V → Res Bool
  | .ifs reads fn => do
    let vs ← readAll P a st reads
    return fn vs
  | .mat _ e pat => do
    let vs ← readAll P a st e.reads
    return pat (e.fn vs)

theorem test_frame {P : Prod V} {a : Addr} {new st : Store V} (hn : ∀ s ∈ keys new, s ∉ keys st) {t : Test V} {b : Bool}
    (h : P.test a st t = .ok b) : P.test a (new ++ st) t = .ok b := by
  cases t with
  | ifs reads fn =>
    obtain ⟨vs, h1, h2⟩ := Res.bind_eq_ok.1 h
    simp only [Prod.test, readAll_frame hn h1]; exact h2
  | mat first e pat =>
    obtain ⟨vs, h1, h2⟩ := Res.bind_eq_ok.1 h
    simp only [Prod.test, readAll_frame hn h1]; exact h2

/-! ## The part of the store a visit may change -/

/-- what the visits of a node of phylum `o` at `a` assign -/
def Terr (ph : Phyla) (o : Option Nat) (a : Addr) (s : Slot) : Prop :=
  (∃ b c, s.1 = b ++ c :: a) ∨
  s.1 = a ∧ ((∃ x, s.2 = .loc x) ∨ ∃ x y k, o = some k ∧ s.2 = .attr x ∧ ph.sched k x = some y ∧ 0 < y)

theorem terr_below {ph : Phyla} {o : Option Nat} {a : Addr} {c : Nat} {s : Slot} (h : Terr ph o (c :: a) s) :
    ∃ b, s.1 = b ++ c :: a := by
  rcases h with ⟨b, c', h⟩ | ⟨h, _⟩
  · exact ⟨b ++ [c'], by simp [h]⟩
  · exact ⟨[], h⟩

theorem terr_up {ph : Phyla} {o o' : Option Nat} {a : Addr} {c : Nat} {s : Slot} (h : Terr ph o (c :: a) s) :
    Terr ph o' a s := by
  obtain ⟨b, h⟩ := terr_below h
  exact .inl ⟨b, c, h⟩

theorem terr_kids {ph : Phyla} {o o' : Option Nat} {a : Addr} {c c' : Nat} {s : Slot} (h : Terr ph o (c :: a) s)
    (h' : Terr ph o' (c' :: a) s) : c = c' := by
  obtain ⟨b, h⟩ := terr_below h
  obtain ⟨b', h'⟩ := terr_below h'
  have := List.append_inj' (h.symm.trans h') (by simp)
  exact (List.cons.inj this.2).1

theorem not_self_below {a b : Addr} {c : Nat} (h : a = b ++ c :: a) : False := by
  have := congrArg List.length h
  simp at this
  omega

variable {ph : Phyla} {P : Prod V}

theorem own_terr (hph : Phased ph) (hd : Described ph P) {i : Nat} {inst : Inst V} (hi : P.insts[i]? = some inst)
    (hr : inst.rule = none) (hin : inst.inward = false) (a : Addr) : Terr ph (some P.lhsPhy) a (inst.slot a) := by
  unfold Inst.slot
  cases hch : inst.ch with
  | some c => exact .inl ⟨[], c, rfl⟩
  | none =>
    by_cases hl : inst.lhs = true
    · simp only [hl, if_true]
      obtain ⟨_, hs, _, hio⟩ := hd.lhs i inst hi hl
      have h0 := (hph.range _ _ _ hs).1
      have : ¬ inst.ph < 0 := fun h => by simp [hio.2 h] at hin
      exact .inr ⟨rfl, .inr ⟨_, _, _, rfl, rfl, hs, by omega⟩⟩
    · simp only [hl]
      exact .inr ⟨rfl, .inl ⟨_, rfl⟩⟩

theorem own_not_kid (hph : Phased ph) (hd : Described ph P) {i : Nat} {inst : Inst V} (hi : P.insts[i]? = some inst)
    (hr : inst.rule = none) (hin : inst.inward = false) (a : Addr) {c : Nat} {o : Option Nat} (ho : P.kidPhy[c]? = some o) :
    ¬ Terr ph o (c :: a) (inst.slot a) := by
  intro h
  unfold Inst.slot at h
  cases hch : inst.ch with
  | some c' =>
    rw [hch] at h
    obtain ⟨k, hk, hs, _, hio⟩ := hd.ch i inst c' hi hch
    change Terr ph o (c :: a) (c' :: a, Key.attr inst.attr) at h
    rcases h with ⟨b, x, h⟩ | ⟨h, ⟨x, hx⟩ | ⟨x, y, k', hk', hx, hy, hpos⟩⟩
    · have := congrArg List.length h
      simp at this
      omega
    · cases hx
    · cases h
      rw [ho] at hk; cases hk; cases hk'
      cases hx
      rw [hs] at hy; cases hy
      simp [hio.2 hpos] at hin
  | none =>
    rw [hch] at h
    simp only at h
    have h1 : ∃ k, (if inst.lhs = true then (a, Key.attr inst.attr) else (a, Key.loc inst.attr)) = (a, k) := by
      split <;> exact ⟨_, rfl⟩
    obtain ⟨k, hk⟩ := h1
    rw [hk] at h
    obtain ⟨b, hb⟩ := terr_below h
    exact not_self_below hb

theorem slot_inj (hd : Described ph P) {i j : Nat} {x y : Inst V} (hi : P.insts[i]? = some x) (hj : P.insts[j]? = some y)
    (hx : x.rule = none) (hy : y.rule = none) {a : Addr} (h : x.slot a = y.slot a) : i = j := by
  have hxl := hd.lhs i x hi
  have hyl := hd.lhs j y hj
  apply hd.inj i j x y hi hj hx hy <;> revert h <;> unfold Inst.slot <;>
    cases hcx : x.ch <;> cases hcy : y.ch <;> cases hlx : x.lhs <;> cases hly : y.lhs <;> intro h <;> simp at h <;> simp_all

/-! ## One node -/

structure NInv (P : Prod V) (a : Addr) (σ : Nat → Bool) (l : List Nat) (st : Store V) : Prop where
  stored : ∀ i ∈ l, ∀ inst, P.insts[i]? = some inst → P.Stored i → inst.slot a ∈ keys st
  fresh : ∀ i inst, P.insts[i]? = some inst → i ∉ l → inst.rule = none → inst.inward = false → inst.slot a ∉ keys st
  tests : ∀ r ∈ l, ∀ inst rule, P.insts[r]? = some inst → inst.rule = some rule → P.test a st rule.test = .ok (σ r)
  vals : ∀ i ∈ l, ∀ inst, P.insts[i]? = some inst → P.Stored i → inst.inward = false →
    ∃ pre post e vs, l = pre ++ i :: post ∧ (P.asg σ pre)[i]?.getD none = some e ∧ readAll P a st e.reads = .ok vs ∧
      get st (inst.slot a) = some (e.fn vs)

theorem NInv.frame {a : Addr} {σ : Nat → Bool} {l : List Nat} {new st : Store V} (h : NInv P a σ l st)
    (hn : ∀ s ∈ keys new, s ∉ keys st)
    (ho : ∀ (i : Nat) (inst : Inst V), P.insts[i]? = some inst → inst.rule = none → inst.inward = false → inst.slot a ∉ keys new) :
    NInv P a σ l (new ++ st) := by
  refine ⟨?_, ?_, ?_, ?_⟩
  · intro i hi inst hin hs
    rw [keys_append]; exact List.mem_append_right _ (h.stored i hi inst hin hs)
  · intro i inst hin hi hr hout
    rw [keys_append, List.mem_append, not_or]
    exact ⟨ho i inst hin hr hout, h.fresh i inst hin hi hr hout⟩
  · intro r hr inst rule hin hru
    exact test_frame hn (h.tests r hr inst rule hin hru)
  · intro i hi inst hin hs hout
    obtain ⟨pre, post, e, vs, h1, h2, h3, h4⟩ := h.vals i hi inst hin hs hout
    refine ⟨pre, post, e, vs, h1, h2, readAll_frame hn h3, ?_⟩
    rw [get_append fun hm => hn _ hm (mem_of_get h4)]; exact h4

theorem NInv.congr {a : Addr} {σ τ : Nat → Bool} {l : List Nat} {st : Store V} (h : NInv P a σ l st)
    (he : ∀ r ∈ l, τ r = σ r) : NInv P a τ l st := by
  refine ⟨h.stored, h.fresh, ?_, ?_⟩
  · intro r hr inst rule hin hru
    rw [he r hr]; exact h.tests r hr inst rule hin hru
  · intro i hi inst hin hs hout
    obtain ⟨pre, post, e, vs, h1, h2, h3⟩ := h.vals i hi inst hin hs hout
    refine ⟨pre, post, e, vs, h1, ?_, h3⟩
    rw [asg_congr P fun r hr => he r (by rw [h1]; simp [hr])]; exact h2

theorem NInv.skip {a : Addr} {σ : Nat → Bool} {l : List Nat} {st : Store V} (h : NInv P a σ l st) {i : Nat} {inst : Inst V}
    (hi : P.insts[i]? = some inst) (hst : P.Stored i → inst.slot a ∈ keys st)
    (hout : inst.inward = false → ¬ P.Stored i)
    (ht : ∀ rule, inst.rule = some rule → P.test a st rule.test = .ok (σ i)) : NInv P a σ (l ++ [i]) st := by
  refine ⟨?_, ?_, ?_, ?_⟩
  · intro j hj inst' hin hs
    rcases List.mem_append.1 hj with hj | hj
    · exact h.stored j hj inst' hin hs
    · simp at hj; subst hj; rw [hi] at hin; cases hin; exact hst hs
  · intro j inst' hin hj hr ho
    exact h.fresh j inst' hin (fun hm => hj (by simp [hm])) hr ho
  · intro r hr inst' rule hin hru
    rcases List.mem_append.1 hr with hr | hr
    · exact h.tests r hr inst' rule hin hru
    · simp at hr; subst hr; rw [hi] at hin; cases hin; exact ht rule hru
  · intro j hj inst' hin hs ho
    rcases List.mem_append.1 hj with hj | hj
    · obtain ⟨pre, post, e, vs, h1, h2⟩ := h.vals j hj inst' hin hs ho
      exact ⟨pre, post ++ [i], e, vs, by rw [h1]; simp, h2⟩
    · simp at hj; subst hj; rw [hi] at hin; cases hin; exact absurd hs (hout ho)

theorem NInv.assign (hd : Described ph P) {a : Addr} {σ : Nat → Bool} {l : List Nat} {st : Store V} (h : NInv P a σ l st)
    {i : Nat} {inst : Inst V} {e : Expr V} {vs : List V} (hi : P.insts[i]? = some inst) (hil : i ∉ l) (hr : inst.rule = none)
    (hin : inst.inward = false) (he : (P.asg σ l)[i]?.getD none = some e) (hv : readAll P a st e.reads = .ok vs) :
    NInv P a σ (l ++ [i]) ((inst.slot a, e.fn vs) :: st) := by
  have hfr := h.fresh i inst hi hil hr hin
  have hn : ∀ s ∈ keys [(inst.slot a, e.fn vs)], s ∉ keys st := by
    intro s hs
    simp [keys] at hs; subst hs
    exact hfr
  refine ⟨?_, ?_, ?_, ?_⟩
  · intro j hj inst' hj' hs
    rcases List.mem_append.1 hj with hj | hj
    · exact List.mem_cons_of_mem _ (h.stored j hj inst' hj' hs)
    · simp at hj; subst hj; rw [hi] at hj'; cases hj'; exact List.mem_cons_self
  · intro j inst' hj hjl hr' ho hm
    rcases List.mem_cons.1 hm with heq | hm
    · exact hjl (by simp [slot_inj hd hj hi hr' hr heq])
    · exact h.fresh j inst' hj (fun hm => hjl (by simp [hm])) hr' ho hm
  · intro r hr' inst' rule hj hru
    rcases List.mem_append.1 hr' with hr' | hr'
    · exact test_frame (new := [(inst.slot a, e.fn vs)]) hn (h.tests r hr' inst' rule hj hru)
    · simp at hr'; subst hr'; rw [hi] at hj; cases hj; rw [hr] at hru; cases hru
  · intro j hj inst' hj' hs ho
    rcases List.mem_append.1 hj with hj | hj
    · obtain ⟨pre, post, e', vs', h1, h2, h3, h4⟩ := h.vals j hj inst' hj' hs ho
      refine ⟨pre, post ++ [i], e', vs', by rw [h1]; simp, h2,
        readAll_frame (new := [(inst.slot a, e.fn vs)]) hn h3, ?_⟩
      rw [← h4]
      exact get_append (new := [(inst.slot a, e.fn vs)]) fun hm => hn _ hm (mem_of_get h4)
    · simp at hj; subst hj; rw [hi] at hj'; cases hj'
      exact ⟨l, [], e, vs, by simp, he, readAll_frame (new := [(inst.slot a, e.fn vs)]) hn hv, get_cons _ _ _⟩

/-! ## A whole tree -/

/-- the instances of a path up to the end of visit `k` -/
def Prod.upto (P : Prod V) (k : Nat) (l : List Nat) : List Nat :=
  l.takeWhile fun i => match P.insts[i]? with | some inst => !(inst.lhs && decide (k < inst.ph.natAbs)) | none => true

theorem upto_eq (P : Prod V) (k : Nat) (l rest : List Nat)
    (hl : ∀ i ∈ l, ∀ inst, P.insts[i]? = some inst → inst.lhs = true → inst.ph.natAbs ≤ k)
    (hr : rest = [] ∨ ∃ i post inst, rest = i :: post ∧ P.insts[i]? = some inst ∧ inst.lhs = true ∧ k < inst.ph.natAbs) :
    P.upto k (l ++ rest) = l := by
  unfold Prod.upto
  rw [List.takeWhile_append_of_pos]
  · rcases hr with rfl | ⟨i, post, inst, rfl, hi, hlhs, hk⟩
    · simp
    · simp [hi, hlhs, hk]
  · intro i hi
    cases hin : P.insts[i]? with
    | none => rfl
    | some inst =>
      simp only
      cases hlhs : inst.lhs
      · rfl
      · have := hl i hi inst hin hlhs
        simp; omega

theorem upto_spec (P : Prod V) (k : Nat) (l : List Nat) : ∃ rest, l = P.upto k l ++ rest ∧
    (∀ i ∈ P.upto k l, ∀ inst, P.insts[i]? = some inst → inst.lhs = true → inst.ph.natAbs ≤ k) ∧
    (rest = [] ∨ ∃ i post inst, rest = i :: post ∧ P.insts[i]? = some inst ∧ inst.lhs = true ∧ k < inst.ph.natAbs) := by
  induction l with
  | nil => exact ⟨[], rfl, by simp [Prod.upto], .inl rfl⟩
  | cons j l ih =>
    obtain ⟨rest, h1, h2, h3⟩ := ih
    cases hj : P.insts[j]? with
    | none =>
      have he : P.upto k (j :: l) = j :: P.upto k l := by simp [Prod.upto, List.takeWhile_cons, hj]
      refine ⟨rest, by rw [he, List.cons_append, ← h1], ?_, h3⟩
      rw [he]
      intro i hi inst hin hl
      rcases List.mem_cons.1 hi with rfl | hi
      · rw [hj] at hin; cases hin
      · exact h2 i hi inst hin hl
    | some x =>
      by_cases hc : x.lhs = true ∧ k < x.ph.natAbs
      · have he : P.upto k (j :: l) = [] := by simp [Prod.upto, List.takeWhile_cons, hj, hc]
        refine ⟨j :: l, by rw [he]; rfl, by rw [he]; simp, .inr ⟨j, l, x, rfl, hj, hc.1, hc.2⟩⟩
      · have he : P.upto k (j :: l) = j :: P.upto k l := by
          simp only [Prod.upto, List.takeWhile_cons, hj]
          rw [if_pos]
          rw [not_and] at hc
          cases hx : x.lhs
          · rfl
          · have := hc hx
            simp only [Bool.true_and, Bool.not_eq_true', decide_eq_false_iff_not]; exact this
        refine ⟨rest, by rw [he, List.cons_append, ← h1], ?_, h3⟩
        rw [he]
        intro i hi inst hin hl
        rcases List.mem_cons.1 hi with rfl | hi
        · rw [hj] at hin; cases hin
          by_contra hh
          exact hc ⟨hl, by omega⟩
        · exact h2 i hi inst hin hl

/-- the store after `k` visits of a tree -/
inductive Sub (ph : Phyla) (prods : List (Prod V)) (st : Store V) : Option Nat → Tree → Addr → Nat → Prop
  | fresh {o : Option Nat} {t : Tree} {a : Addr} : (∀ s ∈ keys st, ¬ Terr ph o a s) → Sub ph prods st o t a 0
  | node {p : Nat} {kids : List Tree} {a : Addr} {P : Prod V} {k : Nat} (σ : Nat → Bool) : prods[p]? = some P → 1 ≤ k →
      NInv P a σ (P.upto k (P.path σ)) st →
      (∀ (c : Nat) (kid : Tree) (o : Option Nat), kids[c]? = some kid → P.kidPhy[c]? = some o →
        Sub ph prods st o kid (c :: a) (P.cp c (P.upto k (P.path σ)))) →
      Sub ph prods st (some P.lhsPhy) (.node p kids) a k

theorem Sub.frame {prods : List (Prod V)} (hV : Valid ph prods) {new st : Store V} {o : Option Nat} {t : Tree} {a : Addr} {k : Nat}
    (h : Sub ph prods st o t a k) (hn : ∀ s ∈ keys new, s ∉ keys st) (ht : ∀ s ∈ keys new, ¬ Terr ph o a s) :
    Sub ph prods (new ++ st) o t a k := by
  induction h with
  | fresh hf =>
    refine .fresh fun s hs => ?_
    rw [keys_append] at hs
    rcases List.mem_append.1 hs with hs | hs
    · exact ht s hs
    · exact hf s hs
  | @node p kids a P k σ hP hk hinv hkids ih =>
    have hd := hV.described P (List.mem_of_getElem? hP)
    refine .node σ hP hk (hinv.frame hn fun i inst hi hr hout hm => ?_) fun c kid o hc ho => ?_
    · exact ht _ hm (own_terr hV.phased hd hi hr hout a)
    · exact ih c kid o hc ho fun s hs hT => ht s hs (terr_up hT)

/-- the inherited attributes for the first `k` visits have values -/
def InhReady (ph : Phyla) (p : Nat) (a : Addr) (k : Nat) (st : Store V) : Prop :=
  ∀ x s, ph.sched p x = some s → s < 0 → s.natAbs ≤ k → ph.implicit p x = false → (a, Key.attr x) ∈ keys st

/-- the synthesised attributes of the first `k` visits have values -/
def SynReady (ph : Phyla) (p : Nat) (a : Addr) (k : Nat) (st : Store V) : Prop :=
  ∀ x s, ph.sched p x = some s → 0 < s → s.natAbs ≤ k → ph.implicit p x = false → (a, Key.attr x) ∈ keys st

theorem rule_none_of_lhs (hd : Described ph P) {i : Nat} {inst : Inst V} (hi : P.insts[i]? = some inst) (hl : inst.lhs = true) :
    inst.rule = none := by
  cases hr : inst.rule with
  | none => rfl
  | some r => have := (hd.rule i inst hi (by rw [hr]; rfl)).1; rw [hl] at this; cases this

theorem rule_none_of_ch (hd : Described ph P) {i c : Nat} {inst : Inst V} (hi : P.insts[i]? = some inst) (hl : inst.ch = some c) :
    inst.rule = none := by
  cases hr : inst.rule with
  | none => rfl
  | some r => have := (hd.rule i inst hi (by rw [hr]; rfl)).2; rw [hl] at this; cases this

/-- in a list sorted by phases, everything of phase at most `k` is in the part up to the end of visit `k` -/
theorem mem_upto {σ : Nat → Bool} (hs : Scheduled ph P) {k i : Nat} {inst : Inst V} (hm : i ∈ P.path σ)
    (hi : P.insts[i]? = some inst) (hl : inst.lhs = true) (hk : inst.ph.natAbs ≤ k) : i ∈ P.upto k (P.path σ) := by
  obtain ⟨rest, h1, h2, h3⟩ := upto_spec P k (P.path σ)
  have hm' := hm
  rw [h1] at hm'
  rcases List.mem_append.1 hm' with h | h
  · exact h
  · exfalso
    rcases h3 with rfl | ⟨j, post, x, rfl, hj, hjl, hjk⟩
    · cases h
    · rcases List.mem_cons.1 h with rfl | h
      · rw [hi] at hj; cases hj; omega
      · have hp := hs.phases σ
        rw [h1] at hp
        have := place_le ((List.pairwise_cons.1 (List.pairwise_append.1 hp).2.1).1 i h x inst hj hi (.inl ⟨hjl, hl⟩))
        omega

theorem Sub.syn {prods : List (Prod V)} (hV : Valid ph prods) {st : Store V} {kp : Nat} {t : Tree} {a : Addr} {k : Nat}
    (h : Sub ph prods st (some kp) t a k) : SynReady ph kp a k st := by
  intro x s hx hpos hk himp
  cases h with
  | fresh hf => omega
  | @node p kids _ P _ σ hP hk' hinv hkids =>
    have hs := hV.scheduled P (List.mem_of_getElem? hP)
    have hd := hV.described P (List.mem_of_getElem? hP)
    obtain ⟨i, hi, inst, hin, hl, rfl⟩ := hs.lhs σ x s hx
    obtain ⟨hch, hsc, hkind, _⟩ := hd.lhs i inst hin hl
    rw [hx] at hsc
    have hph : inst.ph = s := (Option.some.inj hsc).symm
    have hm := mem_upto hs hi hin hl (by omega : inst.ph.natAbs ≤ k)
    have := hinv.stored i hm inst hin ⟨inst, hin, rule_none_of_lhs hd hin hl, .inl (by rw [hkind, himp])⟩
    unfold Inst.slot at this
    rw [hch] at this
    simpa [hl] using this

theorem caseExpr_snoc (P : Prod V) (l : List Nat) (i : Nat) : P.caseExpr (l ++ [i]) =
    match P.caseExpr [i] with | some e => some e | none => P.caseExpr l := by
  induction l with
  | nil => simp only [List.nil_append]; cases P.caseExpr [i] <;> rfl
  | cons j l ih =>
    simp only [List.cons_append]
    rw [Prod.caseExpr, ih]
    cases h : P.caseExpr [i] with
    | some e => rfl
    | none => simp only; rw [Prod.caseExpr]

end Aps.Static
