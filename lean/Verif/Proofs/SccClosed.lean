import Verif.Proofs.SccTree
/-!
# Evaluating a tree of a planned grammar
-/
set_option linter.unusedVariables false
set_option linter.unusedSectionVars false
namespace Aps.SccGen
open Aps.Static

variable {V : Type} [DecidableEq V]

/-- the visits of the children -/
def callOf (prods : List (SProd V)) (plans : Nat → List Visit) (h : Nat) (kids : List Tree) (a : Addr) (c p : Nat) : List (Item V) :=
  match kids[c]? with
  | none => []
  | some kid => tr prods plans h kid (c :: a) p

theorem callOf_kid {prods : List (SProd V)} {plans : Nat → List Visit} {h : Nat} {kids : List Tree} {a : Addr} {c p : Nat} {kid : Tree}
    (hk : kids[c]? = some kid) : callOf prods plans h kids a c p = tr prods plans h kid (c :: a) p := by
  simp [callOf, hk]

theorem tr_node {prods : List (SProd V)} {plans : Nat → List Visit} {h p q : Nat} {kids : List Tree} {a : Addr} {P : SProd V} {v : Visit}
    (hP : prods[p]? = some P) (hv : (plans p)[q - 1]? = some v) :
    tr prods plans (h + 1) (.node p kids) a q = trRuns P (callOf prods plans h kids a) a q (q == 1) v.runs := by
  simp only [tr, hP, hv]
  rfl

theorem hasTy_node {prods : List (SProd V)} {t : Tree} {k : Nat} (h : HasTy (bases prods) t (some k)) :
    ∃ (p : Nat) (kids : List Tree) (P : SProd V), t = .node p kids ∧ prods[p]? = some P ∧ k = P.base.lhsPhy ∧
      ∀ (c k' : Nat), P.base.kidPhy[c]? = some (some k') → ∃ kid, kids[c]? = some kid ∧ HasTy (bases prods) kid (some k') := by
  generalize ho : (some k : Option Nat) = o at h
  cases h with
  | leaf => cases ho
  | @node p kids P₀ hP hlen hk =>
    rw [List.getElem?_map] at hP
    obtain ⟨P, hP', rfl⟩ := Option.map_eq_some_iff.1 hP
    cases ho
    refine ⟨p, kids, P, rfl, hP', rfl, fun c k' hc => ?_⟩
    have hlt : c < kids.length := by rw [hlen]; exact (List.getElem?_eq_some_iff.1 hc).1
    exact ⟨kids[c], List.getElem?_eq_getElem hlt, hk c _ _ (List.getElem?_eq_getElem hlt) hc⟩

theorem split_get {α : Type} {l : List α} {j : Nat} {v : α} (h : l[j]? = some v) : ∃ pre post, l = pre ++ v :: post ∧ pre.length = j := by
  obtain ⟨hj, rfl⟩ := List.getElem?_eq_some_iff.1 h
  refine ⟨l.take j, l.drop (j + 1), ?_, by simp; omega⟩
  rw [← List.drop_eq_getElem_cons hj, List.take_append_drop]

theorem get_split {α : Type} {pre post : List α} {v : α} : (pre ++ v :: post)[pre.length]? = some v := by simp

/-- the part of the plan for a visit -/
theorem Planned.get {ph : Phyla} {cyc : Nat → Nat → Bool} {A : Attrs V} {P : SProd V} {plan : List Visit} (hp : Planned ph cyc A P plan)
    {q : Nat} (h₁ : 1 ≤ q) (h₂ : q ≤ ph.visits P.base.lhsPhy) : ∃ v, plan[q - 1]? = some v :=
  ⟨_, List.getElem?_eq_getElem (by rw [hp.visits.1]; omega)⟩

theorem allSets_steps {P : SProd V} {call : Nat → Nat → List (Item V)} {a : Addr} {l : List Step}
    (h : ∀ c p, .visit c p ∈ l → AllSets (call c p)) : AllSets (trSteps P call a l) := by
  intro i hi
  obtain ⟨s, hs, hi⟩ := List.mem_flatMap.1 hi
  cases s with
  | visit c p => exact h c p hs i hi
  | inst j =>
    simp only [trStep] at hi
    split at hi
    · cases hi
    · simp only [Option.mem_toList, Option.mem_def, Option.map_eq_some_iff] at hi
      obtain ⟨e, _, rfl⟩ := hi
      exact ⟨_, rfl⟩

theorem allSets_runs {P : SProd V} {call : Nat → Nat → List (Item V)} {a : Addr} {q : Nat} (hq : P.cyclic q = true) {rs : List Run} :
    ∀ {first : Bool}, (∀ r ∈ rs, ∀ c p, .visit c p ∈ r.steps → AllSets (call c p)) → AllSets (trRuns P call a q first rs) := by
  induction rs with
  | nil => intro first _ i hi; cases hi
  | cons r rs ih =>
    intro first h
    simp only [trRuns]
    have hl : loopedB P q first r = false := by simp [loopedB, hq]
    rw [hl]
    simp only [Bool.false_and, Bool.false_eq_true, if_false]
    exact allSets_append (allSets_steps (h r List.mem_cons_self)) (ih fun r' hr' => h r' (List.mem_cons_of_mem _ hr'))

theorem occurs_of {plan : List Visit} {q : Nat} (hq : 1 ≤ q) {v : Visit} (hv : plan[q - 1]? = some v) {rpre rpost : List Run} {r : Run}
    (hr : v.runs = rpre ++ r :: rpost) {spre spost : List Step} {s : Step} (hs : r.steps = spre ++ s :: spost) :
    ∃ pre post, plan = pre ++ v :: post ∧ pre.length = q - 1 ∧
      Occurs plan q (q == 1 && rpre.isEmpty) v r (pre.flatMap Visit.steps ++ rpre.flatMap (·.steps) ++ spre) s := by
  obtain ⟨pre, post, h₁, h₂⟩ := split_get hv
  refine ⟨pre, post, h₁, h₂, ⟨pre, post, rpre, rpost, spre, spost, h₁, hr, hs, by omega, rfl, ?_⟩⟩
  simp only [Bool.and_eq_true, beq_iff_eq, List.isEmpty_iff]
  constructor
  · rintro ⟨rfl, h⟩
    exact ⟨List.length_eq_zero_iff.1 (by omega), h⟩
  · rintro ⟨rfl, h⟩
    simp at h₂
    exact ⟨by omega, h⟩

/-- the visits of children of a planned production -/
theorem visit_info {ph : Phyla} {cyc : Nat → Nat → Bool} {A : Attrs V} {P : SProd V} {plan : List Visit} (hp : Planned ph cyc A P plan)
    {q : Nat} (hq : 1 ≤ q) {v : Visit} (hv : plan[q - 1]? = some v) {rpre rpost : List Run} {r : Run}
    (hr : v.runs = rpre ++ r :: rpost) {c p : Nat} (hs : .visit c p ∈ r.steps) :
    ∃ k, P.base.kidPhy[c]? = some (some k) ∧ 1 ≤ p ∧ p ≤ ph.visits k ∧
      (cyc k p = true ↔ P.cyclic q = true ∨ loopedB P q (q == 1 && rpre.isEmpty) r = true) := by
  obtain ⟨spre, spost, hs⟩ := List.append_of_mem hs
  obtain ⟨pre, post, _, _, ho⟩ := occurs_of hq hv hr hs
  obtain ⟨k, h₁, h₂, h₃, _, _, h₄⟩ := hp.visit _ _ _ _ _ _ _ ho
  exact ⟨k, h₁, h₂, h₃, by rw [h₄, loopedB_iff]⟩

section
variable {ph : Phyla} {cyc : Nat → Nat → Bool} {A : Attrs V} {prods : List (SProd V)} {plans : Nat → List Visit}

/-- A circular visit has no loops. -/
theorem tr_sets (hg : Grammar ph cyc A prods plans) : ∀ (h : Nat) {t : Tree} {k : Nat} {a : Addr} {q : Nat},
    HasTy (bases prods) t (some k) → t.height ≤ h → 1 ≤ q → q ≤ ph.visits k → cyc k q = true → AllSets (tr prods plans h t a q) := by
  intro h
  induction h with
  | zero => intro t k a q _ _ _ _ _ i hi; cases hi
  | succ h ih =>
    intro t k a q ht hh h₁ h₂ hc
    obtain ⟨p, kids, P, rfl, hP, rfl, hkids⟩ := hasTy_node ht
    have hp := hg.planned p P hP
    obtain ⟨v, hv⟩ := hp.get h₁ h₂
    rw [tr_node hP hv]
    have hcq : P.cyclic q = true := by rw [hp.flags]; exact hc
    refine allSets_runs hcq fun r hr c p' hs => ?_
    obtain ⟨rpre, rpost, hr⟩ := List.append_of_mem hr
    obtain ⟨k', hk', hp₁, hp₂, hcyc⟩ := visit_info hp h₁ hv hr hs
    obtain ⟨kid, hkid, hty⟩ := hkids c k' hk'
    rw [callOf_kid hkid]
    exact ih hty (by have := height_kid (p := p) hkid; omega) hp₁ hp₂ (hcyc.2 (.inl hcq))

/-- Running a visit procedure is running its flat program. -/
theorem visitNode_eq (hg : Grammar ph cyc A prods plans) {codes : List (List (Code V))}
    (hcodes : ∀ (p : Nat) (P : SProd V), prods[p]? = some P → ∃ cs, codes[p]? = some cs ∧ Printed P cs) (n : Nat) :
    ∀ (h : Nat) {t : Tree} {k : Nat} {a : Addr} {q : Nat}, HasTy (bases prods) t (some k) → t.height ≤ h → 1 ≤ q → q ≤ ph.visits k →
    ∀ st, visitNode A n prods codes h t a q st = runItems A n (tr prods plans h t a q) st := by
  intro h
  induction h with
  | zero =>
    intro t k a q ht hh
    exfalso
    obtain ⟨p, kids, P, rfl, _⟩ := hasTy_node ht
    unfold Static.Tree.height at hh
    omega
  | succ h ih =>
    intro t k a q ht hh h₁ h₂ st
    obtain ⟨p, kids, P, rfl, hP, rfl, hkids⟩ := hasTy_node ht
    have hp := hg.planned p P hP
    obtain ⟨v, hv⟩ := hp.get h₁ h₂
    rw [tr_node hP hv]
    obtain ⟨cs, hcs, hpr⟩ := hcodes p P hP
    have hcs' := codes_planned (hg.described p P hP) hp hpr
    have hcode : cs[q - 1]? = some (runsCode P q (q == 1) v.runs) := by
      rw [hcs', List.getElem?_map, List.getElem?_range (by rw [hp.visits.2]; omega)]
      simp only [Option.map_some, hv, Option.getD_some]
      rw [show q - 1 + 1 = q by omega]
      congr 2
      by_cases hq : q = 1
      · subst hq; rfl
      · have : ¬ q - 1 = 0 := by omega
        simp [hq, this]
    simp only [visitNode, hP, hcs, Option.bind_some, hcode]
    refine run_runs ?_ ?_
    · intro r hr s hs
      obtain ⟨rpre, rpost, hr'⟩ := List.append_of_mem hr
      cases s with
      | visit c p' =>
        intro st
        obtain ⟨k', hk', hp₁, hp₂, _⟩ := visit_info hp h₁ hv hr' hs
        obtain ⟨kid, hkid, hty⟩ := hkids c k' hk'
        rw [callOf_kid hkid]
        simp only [hkid]
        exact ih hty (by have := height_kid (p := p) hkid; omega) hp₁ hp₂ st
      | inst i =>
        intro e he j hj
        obtain ⟨spre, spost, hs'⟩ := List.append_of_mem hs
        obtain ⟨pre, post, _, _, ho⟩ := occurs_of h₁ hv hr' hs'
        obtain ⟨inst, hinst, _⟩ := (hp.reads _ _ _ _ _ _ _ ho he j hj).1
        rw [hinst]
        rfl
    · intro rpre rpost r hr' hl
      refine allSets_steps fun c p' hs => ?_
      obtain ⟨k', hk', hp₁, hp₂, hcyc⟩ := visit_info hp h₁ hv hr' hs
      obtain ⟨kid, hkid, hty⟩ := hkids c k' hk'
      rw [callOf_kid hkid]
      exact tr_sets hg h hty (by have := height_kid (p := p) hkid; omega) hp₁ hp₂ (hcyc.2 (.inr hl))

/-! ## What is assigned -/

theorem slots_tr_node {h p q : Nat} {kids : List Tree} {a : Addr} {P : SProd V} {v : Visit}
    (hP : prods[p]? = some P) (hv : (plans p)[q - 1]? = some v) :
    slots (tr prods plans (h + 1) (.node p kids) a q) = slots (trSteps P (callOf prods plans h kids a) a v.steps) := by
  rw [tr_node hP hv, slots_trRuns]
  rfl

theorem emits_stored {P : SProd V} {i : Nat} {inst : Inst V} (hi : P.base.insts[i]? = some inst) (hw : inst.inward = false)
    (hs : P.base.Stored i) (o : Option (Expr V)) : emits inst o = o := by
  obtain ⟨inst', hi', _, hk⟩ := hs
  rw [hi] at hi'
  cases hi'
  unfold emits
  rcases hk with hk | hk <;> simp [hw, hk]

theorem mem_slots_steps {P : SProd V} {call : Nat → Nat → List (Item V)} {a : Addr} {l : List Step} {s : Slot} :
    s ∈ slots (trSteps P call a l) ↔ ∃ x ∈ l, s ∈ slots (trStep P call a x) := by
  simp only [slots, trSteps, List.mem_flatMap]
  constructor
  · rintro ⟨i, ⟨x, hx, hi⟩, hs⟩
    exact ⟨x, hx, i, hi, hs⟩
  · rintro ⟨x, hx, i, hi, hs⟩
    exact ⟨i, ⟨x, hx, hi⟩, hs⟩

theorem slot_inst {P : SProd V} {plan : List Visit} (hp : Planned ph cyc A P plan) {call : Nat → Nat → List (Item V)} {a : Addr}
    {i : Nat} {inst : Inst V} (hi : P.base.insts[i]? = some inst) (hw : inst.inward = false) (hs : P.base.Stored i) :
    slotAt P a i ∈ slots (trStep P call a (.inst i)) := by
  obtain ⟨e, he⟩ := Option.ne_none_iff_exists'.1 (hp.defined i inst hi hw hs)
  simp only [trStep, hi, emits_stored hi hw hs, he, Option.map_some, Option.toList_some]
  simp [slots, Item.slots, evOf]

/-- a visit computes what is handed up -/
theorem slot_syn (hg : Grammar ph cyc A prods plans) {h : Nat} {t : Tree} {k : Nat} {a : Addr} {q : Nat}
    (ht : HasTy (bases prods) t (some k)) (hh : t.height ≤ h) (h₁ : 1 ≤ q) (h₂ : q ≤ ph.visits k) {x : Nat}
    (hx : ph.sched k x = some (q : Int)) (him : ph.implicit k x = false) : ((a, .attr x) : Slot) ∈ slots (tr prods plans h t a q) := by
  obtain ⟨p, kids, P, rfl, hP, rfl, hkids⟩ := hasTy_node ht
  cases h with
  | zero => unfold Static.Tree.height at hh; omega
  | succ h =>
    have hp := hg.planned p P hP
    have hd := hg.described p P hP
    obtain ⟨v, hv⟩ := hp.get h₁ h₂
    rw [slots_tr_node hP hv]
    obtain ⟨i, inst, hi, hl, rfl⟩ := hp.attrs x _ hx
    obtain ⟨d₁, d₂, d₃, d₄⟩ := hd.lhs i inst hi hl
    rw [hx] at d₂
    have hph : inst.ph = (q : Int) := (Option.some.inj d₂).symm
    have hw : inst.inward = false := by
      cases hb : inst.inward with
      | false => rfl
      | true => have := d₄.1 hb; omega
    have hs : P.base.Stored i := ⟨inst, hi, hp.rules i inst hi, .inl (by rw [d₃, him])⟩
    have := slot_inst hp (call := callOf prods plans h kids a) (a := a) hi hw hs
    rw [show slotAt P a i = (a, .attr inst.attr) by simp [slotAt, hi, Inst.slot, d₁, hl]] at this
    exact mem_slots_steps.2 ⟨_, hp.syn i inst q v hi hl hph h₁ hv, this⟩

/-- what is computed within some steps -/
theorem slot_within (hg : Grammar ph cyc A prods plans) {p : Nat} {P : SProd V} (hP : prods[p]? = some P) {kids : List Tree}
    (hkids : ∀ (c k' : Nat), P.base.kidPhy[c]? = some (some k') → ∃ kid, kids[c]? = some kid ∧ HasTy (bases prods) kid (some k'))
    {h : Nat} (hh : (Static.Tree.node p kids).height ≤ h + 1) {a : Addr} {l : List Step} {j : Nat} (hw : Within P l j) (hs : P.base.Stored j) :
    slotAt P a j ∈ slots (trSteps P (callOf prods plans h kids a) a l) := by
  obtain ⟨inst, hi, hw⟩ := hw
  rcases hw with ⟨hw, hm⟩ | ⟨c, q, hc, hq, hpos, hm⟩
  · exact mem_slots_steps.2 ⟨_, hm, slot_inst (hg.planned p P hP) hi hw hs⟩
  · refine mem_slots_steps.2 ⟨_, hm, ?_⟩
    obtain ⟨k, hk, h₁, h₂, h₃⟩ := (hg.described p P hP).ch j inst c hi hc
    obtain ⟨kid, hkid, hty⟩ := hkids c k hk
    simp only [trStep, callOf_kid hkid]
    have hr := (hg.phased.range k inst.attr inst.ph h₁).2
    have him : ph.implicit k inst.attr = false := by
      obtain ⟨inst', hi', _, hk'⟩ := hs
      rw [hi] at hi'
      cases hi'
      rw [h₂] at hk'
      rcases hk' with hk' | hk'
      · injection hk'
      · cases hk'
    have := slot_syn hg (h := h) (a := c :: a) hty (by have := height_kid (p := p) hkid; omega) (q := q) (by omega) (by omega) (by rw [h₁, hq]) him
    rw [show slotAt P a j = (c :: a, .attr inst.attr) by simp [slotAt, hi, Inst.slot, hc]]
    exact this

end

/-! ## Everything read is there -/

/-- like `Closed`, with slots that may be read in any case -/
def ClosedL (A : Attrs V) (Q : SEv V → Prop) (L : Slot → Prop) : (Slot → Prop) → List (Item V) → Prop
  | _, [] => True
  | D, .set e :: is => Q e ∧ (∀ r ∈ e.reads, D r ∨ L r) ∧ ClosedL A Q L (ext D [e.slot]) is
  | D, .loop es :: is => WClosed Q (inLoop A es) D es ∧ ClosedL A Q L (ext D (es.map (·.slot))) is

theorem ext_ext (D : Slot → Prop) (l l' : List Slot) : ext (ext D l) l' = ext D (l ++ l') := by
  funext s
  simp [ext, or_assoc]

theorem ext_nil (D : Slot → Prop) : ext D [] = D := by
  funext s
  simp [ext]

theorem closedL_append {A : Attrs V} {Q : SEv V → Prop} {L : Slot → Prop} {xs ys : List (Item V)} : ∀ {D : Slot → Prop},
    ClosedL A Q L D xs → ClosedL A Q L (ext D (slots xs)) ys → ClosedL A Q L D (xs ++ ys) := by
  induction xs with
  | nil =>
    intro D _ h
    rw [show slots ([] : List (Item V)) = [] from rfl, ext_nil] at h
    exact h
  | cons x xs ih =>
    intro D h₁ h₂
    rw [show slots (x :: xs) = x.slots ++ slots xs from rfl, ← ext_ext] at h₂
    cases x with
    | set e => exact ⟨h₁.1, h₁.2.1, ih h₁.2.2 h₂⟩
    | loop es => exact ⟨h₁.1, ih h₁.2 h₂⟩

theorem closedL_closed {A : Attrs V} {Q : SEv V → Prop} {L : Slot → Prop} (hL : ∀ s, ¬ L s) {is : List (Item V)} : ∀ {D : Slot → Prop},
    ClosedL A Q L D is → Closed A Q D is := by
  induction is with
  | nil => intro D _; trivial
  | cons i is ih =>
    intro D h
    cases i with
    | set e => exact ⟨h.1, fun r hr => (h.2.1 r hr).resolve_right (hL r), ih h.2.2⟩
    | loop es => exact ⟨h.1, ih h.2⟩

theorem closedL_wclosed {A : Attrs V} {Q : SEv V → Prop} {L : Slot → Prop} {is : List (Item V)} (hs : AllSets is) : ∀ {D : Slot → Prop},
    ClosedL A Q L D is → WClosed Q L D (is.flatMap Item.evs) := by
  induction is with
  | nil => intro D _; trivial
  | cons i is ih =>
    intro D h
    obtain ⟨e, rfl⟩ := hs i List.mem_cons_self
    exact ⟨h.1, h.2.1, ih (fun i hi => hs i (List.mem_cons_of_mem _ hi)) h.2.2⟩

theorem closed_append {A : Attrs V} {Q : SEv V → Prop} {xs ys : List (Item V)} : ∀ {D : Slot → Prop},
    Closed A Q D xs → Closed A Q (ext D (slots xs)) ys → Closed A Q D (xs ++ ys) := by
  induction xs with
  | nil =>
    intro D _ h
    rw [show slots ([] : List (Item V)) = [] from rfl, ext_nil] at h
    exact h
  | cons x xs ih =>
    intro D h₁ h₂
    rw [show slots (x :: xs) = x.slots ++ slots xs from rfl, ← ext_ext] at h₂
    cases x with
    | set e => exact ⟨h₁.1, h₁.2.1, ih h₁.2.2 h₂⟩
    | loop es => exact ⟨h₁.1, ih h₁.2 h₂⟩

/-- the assignments of a tree -/
def QOf (prods : List (SProd V)) (root : Tree) (e : SEv V) : Prop :=
  ∃ a p kids, ∃ (P : SProd V) (i : Nat) (inst : Inst V) (ex : Expr V), At root a (.node p kids) ∧ prods[p]? = some P ∧
    P.base.insts[i]? = some inst ∧ emits inst (P.rhs i) = some ex ∧ e = evOf P a i ex

section
variable {ph : Phyla} {cyc : Nat → Nat → Bool} {A : Attrs V} {prods : List (SProd V)} {plans : Nat → List Visit}

/-- The steps of one run. -/
theorem steps_closed (hg : Grammar ph cyc A prods plans) {root : Tree} {p : Nat} {P : SProd V} (hP : prods[p]? = some P) {kids : List Tree}
    {a : Addr} (hat : At root a (.node p kids))
    (hkids : ∀ (c k' : Nat), P.base.kidPhy[c]? = some (some k') → ∃ kid, kids[c]? = some kid ∧ HasTy (bases prods) kid (some k'))
    {h : Nat} (hh : (Static.Tree.node p kids).height ≤ h + 1)
    (ih : ∀ {t : Tree} {k : Nat} {a : Addr} {q : Nat}, HasTy (bases prods) t (some k) → t.height ≤ h → 1 ≤ q → q ≤ ph.visits k →
      At root a t → ∀ {L D : Slot → Prop},
      (∀ (x : Nat) (s : Int), ph.sched k x = some s → s < 0 → -s ≤ q → ph.implicit k x = false → D (a, .attr x)) →
      (∀ q', 1 ≤ q' → q' < q → ∀ s ∈ slots (tr prods plans h t a q'), D s) →
      (cyc k q = true → ∀ s ∈ slots (tr prods plans h t a q), A.circ s.2 = true → L s) →
      ClosedL A (QOf prods root) L D (tr prods plans h t a q))
    {q : Nat} (hq : 1 ≤ q) {v : Visit} (hv : (plans p)[q - 1]? = some v) {rpre rpost : List Run} {r : Run} (hr : v.runs = rpre ++ r :: rpost)
    {L : Slot → Prop}
    (hL₁ : P.cyclic q = true → ∀ s ∈ slots (trSteps P (callOf prods plans h kids a) a v.steps), A.circ s.2 = true → L s)
    (hL₂ : loopedB P q (q == 1 && rpre.isEmpty) r = true →
      ∀ s ∈ slots (trSteps P (callOf prods plans h kids a) a r.steps), A.circ s.2 = true → L s)
    {D : Slot → Prop}
    (hin : ∀ (x : Nat) (s : Int), ph.sched P.base.lhsPhy x = some s → s < 0 → -s ≤ q → ph.implicit P.base.lhsPhy x = false → D (a, .attr x))
    (hprev : ∀ q', 1 ≤ q' → q' < q → ∀ s ∈ slots (tr prods plans (h + 1) (.node p kids) a q'), D s) {l : List Step} :
    ∀ {spre : List Step} {D' : Slot → Prop}, r.steps = spre ++ l → (∀ s, D s → D' s) →
    (∀ s ∈ slots (trSteps P (callOf prods plans h kids a) a (rpre.flatMap (·.steps) ++ spre)), D' s) →
    ClosedL A (QOf prods root) L D' (trSteps P (callOf prods plans h kids a) a l) := by
  have hp := hg.planned p P hP
  have hd := hg.described p P hP
  induction l with
  | nil => intro spre D' _ _ _; trivial
  | cons s l ihl =>
    intro spre D' hs hD hD'
    obtain ⟨pre, post, hpl, hlen, ho⟩ := occurs_of hq hv hr hs
    -- what was computed before
    have hbefore : ∀ sl ∈ slots (trSteps P (callOf prods plans h kids a) a (pre.flatMap Visit.steps ++ rpre.flatMap (·.steps) ++ spre)), D' sl := by
      intro sl hsl
      obtain ⟨x, hx, hsl⟩ := mem_slots_steps.1 hsl
      rw [List.append_assoc, List.mem_append] at hx
      rcases hx with hx | hx
      · obtain ⟨v', hv', hx⟩ := List.mem_flatMap.1 hx
        obtain ⟨j, hj, hget⟩ := List.mem_iff_getElem.1 hv'
        have hv'' : (plans p)[j]? = some v' := by
          rw [hpl, List.getElem?_append_left hj, List.getElem?_eq_getElem hj, hget]
        apply hD
        apply hprev (j + 1) (by omega) (by omega) sl
        rw [slots_tr_node hP (v := v') (by simpa using hv'')]
        exact mem_slots_steps.2 ⟨x, hx, hsl⟩
      · exact hD' sl (mem_slots_steps.2 ⟨x, hx, hsl⟩)
    have hrest : ClosedL A (QOf prods root) L (ext D' (slots (trStep P (callOf prods plans h kids a) a s)))
        (trSteps P (callOf prods plans h kids a) a l) := by
      refine ihl (spre := spre ++ [s]) (by rw [hs]; simp) (fun s hs => .inl (hD s hs)) fun sl hsl => ?_
      obtain ⟨x, hx, hsl⟩ := mem_slots_steps.1 hsl
      rw [← List.append_assoc, List.mem_append] at hx
      rcases hx with hx | hx
      · exact .inl (hD' sl (mem_slots_steps.2 ⟨x, hx, hsl⟩))
      · simp only [List.mem_singleton] at hx
        rw [hx] at hsl
        exact .inr hsl
    refine closedL_append (xs := trStep P (callOf prods plans h kids a) a s) ?_ hrest
    have hmem : s ∈ r.steps := by rw [hs]; simp
    have hmemv : s ∈ v.steps := List.mem_flatMap.2 ⟨r, by rw [hr]; simp, hmem⟩
    cases s with
    | inst i =>
      simp only [trStep]
      cases hi : P.base.insts[i]? with
      | none => trivial
      | some inst =>
        simp only
        cases he : emits inst (P.rhs i) with
        | none => trivial
        | some e =>
          refine ⟨⟨a, p, kids, P, i, inst, e, hat, hP, hi, he, rfl⟩, ?_, trivial⟩
          intro sl hsl
          obtain ⟨j, hj, rfl⟩ := List.mem_map.1 hsl
          obtain ⟨hst, hav⟩ := hp.reads _ _ _ _ _ _ _ ho (emits_some he) j hj
          rcases hav with ⟨ij, hij, hav⟩ | ⟨hcirc, hav⟩
          · rcases hav with ⟨hl, hn, hge⟩ | hav
            · obtain ⟨d₁, d₂, d₃, d₄⟩ := hd.lhs j ij hij hl
              have him : ph.implicit P.base.lhsPhy ij.attr = false := by
                obtain ⟨inst', hi', _, hk'⟩ := hst
                rw [hij] at hi'
                cases hi'
                rw [d₃] at hk'
                rcases hk' with hk' | hk'
                · injection hk'
                · cases hk'
              rw [show slotAt P a j = (a, .attr ij.attr) by simp [slotAt, hij, Inst.slot, d₁, hl]]
              exact .inl (hD _ (hin ij.attr ij.ph d₂ hn (by omega) him))
            · exact .inl (hbefore _ (slot_within hg hP hkids hh ⟨ij, hij, hav⟩ hst))
          · have hck : A.circ (slotAt P a j).2 = true := by
              obtain ⟨inst', hi', _⟩ := hst
              simp only [keyOf, hi', Option.map_some, Option.some.injEq] at hcirc
              simp only [slotAt, hi', Option.map_some, Option.getD_some]
              rw [← hcirc]
              congr 1
              unfold Inst.slot
              cases inst'.ch with
              | some c => rfl
              | none => simp only; split <;> rfl
            rcases hav with ⟨hcyc, hw⟩ | ⟨hlp, hw⟩
            · exact .inr (hL₁ hcyc _ (slot_within hg hP hkids hh hw hst) hck)
            · exact .inr (hL₂ (loopedB_iff.2 hlp) _ (slot_within hg hP hkids hh hw hst) hck)
    | visit c p' =>
      obtain ⟨k', hk', hp₁, hp₂, hearlier, hinh, hcyc⟩ := hp.visit _ _ _ _ _ _ _ ho
      obtain ⟨kid, hkid, hty⟩ := hkids c k' hk'
      simp only [trStep, callOf_kid hkid]
      refine ih hty (by have := height_kid (p := p) hkid; omega) hp₁ hp₂ (.kid hat hkid) ?_ ?_ ?_
      · intro x s hx hneg hle him
        obtain ⟨i, inst, hi, hc, rfl, hm⟩ := hinh x s hx hneg hle him
        obtain ⟨k'', hk'', d₁, d₂, d₃⟩ := hd.ch i inst c hi hc
        rw [hk'] at hk''
        cases hk''
        rw [hx] at d₁
        have hps := Option.some.inj d₁
        have hw : inst.inward = false := by
          cases hb : inst.inward with
          | false => rfl
          | true => have := d₃.1 hb; omega
        have hst : P.base.Stored i := ⟨inst, hi, hp.rules i inst hi, .inl (by rw [d₂, him])⟩
        have := hbefore _ (slot_within hg hP hkids hh ⟨inst, hi, .inl ⟨hw, hm⟩⟩ hst)
        rw [show slotAt P a i = (c :: a, .attr inst.attr) by simp [slotAt, hi, Inst.slot, hc]] at this
        exact this
      · intro q' hq₁ hq₂ sl hsl
        refine hbefore sl (mem_slots_steps.2 ⟨_, hearlier q' hq₁ hq₂, ?_⟩)
        simp only [trStep, callOf_kid hkid]
        exact hsl
      · intro hc sl hsl hck
        have hsl' : sl ∈ slots (trStep P (callOf prods plans h kids a) a (.visit c p')) := by
          simp only [trStep, callOf_kid hkid]
          exact hsl
        rcases hcyc.1 hc with hc | hc
        · exact hL₁ hc sl (mem_slots_steps.2 ⟨_, hmemv, hsl'⟩) hck
        · exact hL₂ (loopedB_iff.2 hc) sl (mem_slots_steps.2 ⟨_, hmem, hsl'⟩) hck

/-- A visit reads only what is there. -/
theorem tr_closed (hg : Grammar ph cyc A prods plans) {root : Tree} : ∀ (h : Nat) {t : Tree} {k : Nat} {a : Addr} {q : Nat},
    HasTy (bases prods) t (some k) → t.height ≤ h → 1 ≤ q → q ≤ ph.visits k → At root a t → ∀ {L D : Slot → Prop},
    (∀ (x : Nat) (s : Int), ph.sched k x = some s → s < 0 → -s ≤ q → ph.implicit k x = false → D (a, .attr x)) →
    (∀ q', 1 ≤ q' → q' < q → ∀ s ∈ slots (tr prods plans h t a q'), D s) →
    (cyc k q = true → ∀ s ∈ slots (tr prods plans h t a q), A.circ s.2 = true → L s) →
    ClosedL A (QOf prods root) L D (tr prods plans h t a q) := by
  intro h
  induction h with
  | zero => intro t k a q _ _ _ _ _ L D _ _ _; trivial
  | succ h ih =>
    intro t k a q ht hh h₁ h₂ hat L D hin hprev hL
    obtain ⟨p, kids, P, rfl, hP, rfl, hkids⟩ := hasTy_node ht
    have hp := hg.planned p P hP
    obtain ⟨v, hv⟩ := hp.get h₁ h₂
    have hL' : P.cyclic q = true → ∀ s ∈ slots (trSteps P (callOf prods plans h kids a) a v.steps), A.circ s.2 = true → L s := by
      intro hc s hs
      rw [hp.flags] at hc
      exact hL hc s (by rw [slots_tr_node hP hv]; exact hs)
    rw [tr_node hP hv]
    suffices H : ∀ (rs rpre : List Run) (D' : Slot → Prop), v.runs = rpre ++ rs → (∀ s, D s → D' s) →
        (∀ s ∈ slots (trSteps P (callOf prods plans h kids a) a (rpre.flatMap (·.steps))), D' s) →
        ClosedL A (QOf prods root) L D' (trRuns P (callOf prods plans h kids a) a q (q == 1 && rpre.isEmpty) rs) by
      have := H v.runs [] D rfl (fun s hs => hs) (fun s hs => by cases hs)
      simpa using this
    intro rs
    induction rs with
    | nil => intro rpre D' _ _ _; trivial
    | cons r rs ihr =>
      intro rpre D' hr hD hD'
      simp only [trRuns]
      have hrest : ∀ is : List (Item V), slots is = slots (trSteps P (callOf prods plans h kids a) a r.steps) →
          ClosedL A (QOf prods root) L (ext D' (slots is)) (trRuns P (callOf prods plans h kids a) a q false rs) := by
        intro is his
        have := ihr (rpre ++ [r]) (ext D' (slots is)) (by rw [hr]; simp) (fun s hs => .inl (hD s hs)) (by
          intro s hs
          rw [List.flatMap_append] at hs
          obtain ⟨x, hx, hs⟩ := mem_slots_steps.1 hs
          rcases List.mem_append.1 hx with hx | hx
          · exact .inl (hD' s (mem_slots_steps.2 ⟨x, hx, hs⟩))
          · refine .inr ?_
            rw [his]
            exact mem_slots_steps.2 ⟨x, by simpa using hx, hs⟩)
        rw [show (q == 1 && (rpre ++ [r]).isEmpty) = false by cases rpre <;> simp] at this
        exact this
      by_cases hb : (loopedB P q (q == 1 && rpre.isEmpty) r && !(r.steps.flatMap (stepToks P)).isEmpty) = true
      · rw [if_pos hb]
        have hlp := (Bool.and_eq_true_iff.1 hb).1
        have hes : ((trSteps P (callOf prods plans h kids a) a r.steps).flatMap Item.evs).map (·.slot) =
            slots (trSteps P (callOf prods plans h kids a) a r.steps) := map_evs _
        have hsets : AllSets (trSteps P (callOf prods plans h kids a) a r.steps) := by
          refine allSets_steps fun c p' hs => ?_
          obtain ⟨k', hk', hp₁, hp₂, hcyc⟩ := visit_info hp h₁ hv hr hs
          obtain ⟨kid, hkid, hty⟩ := hkids c k' hk'
          rw [callOf_kid hkid]
          exact tr_sets hg h hty (by have := height_kid (p := p) hkid; omega) hp₁ hp₂ (hcyc.2 (.inr hlp))
        have hnc : P.cyclic q = false := (loopedB_iff.1 hlp).2.2
        have hst := steps_closed hg hP hat hkids hh ih h₁ hv hr
          (L := inLoop A ((trSteps P (callOf prods plans h kids a) a r.steps).flatMap Item.evs))
          (by intro hc; rw [hnc] at hc; cases hc)
          (by intro _ s hs hck; exact ⟨by rw [hes]; exact hs, hck⟩)
          hin hprev (l := r.steps) (spre := []) (D' := D') rfl hD (by simpa using hD')
        refine closedL_append (xs := [Item.loop _]) ⟨closedL_wclosed hsets hst, trivial⟩ (hrest _ ?_)
        rw [show ∀ es : List (SEv V), slots [Item.loop es] = es.map (·.slot) from fun es => by simp [slots, Item.slots], hes]
      · rw [if_neg hb]
        refine closedL_append ?_ (hrest _ rfl)
        by_cases hlp : loopedB P q (q == 1 && rpre.isEmpty) r = true
        · -- nothing is printed
          have hemp : (r.steps.flatMap (stepToks P)).isEmpty = true := by
            simpa [hlp] using hb
          have : trSteps P (callOf prods plans h kids a) a r.steps = [] := by
            rw [List.isEmpty_iff, List.flatMap_eq_nil_iff] at hemp
            exact List.flatMap_eq_nil_iff.2 fun s hs => trStep_silent (hemp s hs)
          rw [this]
          trivial
        · exact steps_closed hg hP hat hkids hh ih h₁ hv hr hL' (fun h => absurd h hlp) hin hprev (l := r.steps) (spre := []) (D' := D')
            rfl hD (by simpa using hD')

end

end Aps.SccGen
