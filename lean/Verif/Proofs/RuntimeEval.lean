import Verif.Proofs.RuntimeBase
import Mathlib.Data.Set.Basic
import Mathlib.Data.Finset.Card
set_option linter.unusedSectionVars false
set_option linter.unusedVariables false
/-! Soundness of demand evaluation (non-circular attributes). -/
namespace Aps.Runtime
variable {A P V : Type} [DecidableEq A] [DecidableEq P]

/-- Cells assigned, through the views. -/
def asgOf (L : Lang A P V) (s : St A P V) (a : A) (i : Nat) : Option V :=
  if stOf s a i = .assigned then some (vOf L s a i) else none

def Sof (s : St A P V) : A → Prop := fun a => started s a = true
def Kof (s : St A P V) : Set (A × Nat) := {c | stOf s c.1 c.2 = .cycle}

theorem assignedIn_eq {L : Lang A P V} {s : St A P V} (hw : WF L s) : assignedIn s = asgOf L s := by
  funext a i
  unfold assignedIn asgOf stOf vOf
  have := hw.len a
  by_cases hi : i < (s.attr a).stat.length
  · rw [List.getElem?_eq_getElem hi, List.getElem?_eq_getElem (by omega)]; simp
  · rw [List.getElem?_eq_none (by omega), List.getElem?_eq_none (by omega)]; simp

theorem Runs.mono {L : Lang A P V} {asg asg' : A → Nat → Option V} {S S' : A → Prop}
    (hS : ∀ a, S a → S' a) (ha : ∀ a i, S a → asg' a i = asg a i) {c : Comp A P V} {v : V}
    (h : Runs L asg S c v) : Runs L asg' S' c v := by
  induction h with
  | ret v => exact .ret v
  | given h1 h2 h3 _ ih => exact .given h1 (hS _ h2) (by rw [ha _ _ h2, h3]) ih
  | eqn h1 h2 h3 _ _ ih1 ih2 => exact .eqn h1 (hS _ h2) (by rw [ha _ _ h2, h3]) ih1 ih2

theorem Runs.det {L : Lang A P V} {asg : A → Nat → Option V} {S S' : A → Prop}
    {c : Comp A P V} {v w : V} (h : Runs L asg S c v) (h' : Runs L asg S' c w) : v = w := by
  induction h generalizing w with
  | ret v => cases h'; rfl
  | given _ _ h3 _ ih =>
    cases h' with
    | given _ _ g3 g4 => rw [h3] at g3; cases g3; exact ih g4
    | eqn _ _ g3 _ _ => rw [h3] at g3; cases g3
  | eqn _ _ h3 _ _ ih1 ih2 =>
    cases h' with
    | given _ _ g3 g4 => rw [h3] at g3; cases g3
    | eqn _ _ g3 g4 g5 => cases ih1 g4; exact ih2 g5

/-- A computation that cannot finish: it gets to an undefined equation, a bad phylum, or reads a
cell of `K`. -/
inductive Blocked (L : Lang A P V) (asg : A → Nat → Option V) (S : A → Prop) (K : Set (A × Nat)) :
    Comp A P V → Prop
  | undef : Blocked L asg S K .undef
  | bad {b m k} : m.phylum ≠ L.phylum b → Blocked L asg S K (.read b m k)
  | stuck {b m k} : m.phylum = L.phylum b → (b, m.index) ∈ K → asg b m.index = none →
      Blocked L asg S K (.read b m k)
  | step {b m k w} : Runs L asg S (.read b m .ret) w → Blocked L asg S K (k w) →
      Blocked L asg S K (.read b m k)

theorem Runs.phyl {L : Lang A P V} {asg : A → Nat → Option V} {S : A → Prop} {b m k v}
    (h : Runs L asg S (.read b m k) v) : m.phylum = L.phylum b ∧ S b := by
  cases h with
  | given h1 h2 => exact ⟨h1, h2⟩
  | eqn h1 h2 => exact ⟨h1, h2⟩

theorem Runs.read_ret_step {L : Lang A P V} {asg : A → Nat → Option V} {S : A → Prop} {b m k w v}
    (h : Runs L asg S (.read b m .ret) w) (h' : Runs L asg S (k w) v) :
    Runs L asg S (.read b m k) v := by
  cases h with
  | given h1 h2 h3 h4 => cases h4; exact .given h1 h2 h3 h'
  | eqn h1 h2 h3 h4 h5 => cases h5; exact .eqn h1 h2 h3 h4 h'

theorem Blocked.mono {L : Lang A P V} {asg asg' : A → Nat → Option V} {S S' : A → Prop}
    {K K' : Set (A × Nat)}
    (hS : ∀ a, S a → S' a) (ha : ∀ a i, S a → asg' a i = asg a i) (hK : K ⊆ K')
    (hKS : ∀ c ∈ K, S c.1)
    {c : Comp A P V}
    (h : Blocked L asg S K c) : Blocked L asg' S' K' c := by
  induction h with
  | undef => exact .undef
  | bad h => exact .bad h
  | stuck h1 h2 h3 => exact .stuck h1 (hK h2) (by rw [ha _ _ (hKS _ h2), h3])
  | step h1 _ ih => exact .step (h1.mono hS ha) ih

theorem Blocked.not_runs {L : Lang A P V} {asg : A → Nat → Option V} {S S' : A → Prop}
    {K : Set (A × Nat)}
    (hK : ∀ a i, (a, i) ∈ K → Blocked L asg S K (L.compute a ⟨L.phylum a, i⟩))
    {c : Comp A P V} {v : V} (h : Runs L asg S' c v) : ¬ Blocked L asg S K c := by
  induction h with
  | ret v => intro hb; cases hb
  | given h1 h2 h3 h4 ih =>
    intro hb
    cases hb with
    | bad g => exact g h1
    | stuck g1 g2 g3 => rw [h3] at g3; cases g3
    | step g1 g2 =>
      have : _ = _ := Runs.det (Runs.given h1 h2 h3 (.ret _)) g1
      subst this; exact ih g2
  | eqn h1 h2 h3 h4 h5 ih1 ih2 =>
    intro hb
    cases hb with
    | bad g => exact g h1
    | stuck g1 g2 g3 =>
      rename_i b m k w v
      have := hK _ _ g2
      rw [← g1] at this
      exact ih1 this
    | step g1 g2 =>
      have : _ = _ := Runs.det (Runs.eqn h1 h2 h3 h4 (.ret _)) g1
      subst this; exact ih2 g2

structure Inv (L : Lang A P V) (T : Set (A × Nat)) (s : St A P V) : Prop where
  wf : WF L s
  evald : ∀ a i, stOf s a i = .evaluated → started s a = true ∧
    Runs L (asgOf L s) (Sof s) (L.compute a ⟨L.phylum a, i⟩) (vOf L s a i)
  cyc : ∀ a i, stOf s a i = .cycle → started s a = true
  stuck : ∀ a i, stOf s a i = .cycle → (a, i) ∉ T →
    Blocked L (asgOf L s) (Sof s) (Kof s) (L.compute a ⟨L.phylum a, i⟩)
  nodup : s.log.Nodup
  log : ∀ a i, (a, i) ∈ s.log ↔ (stOf s a i = .cycle ∨ stOf s a i = .evaluated)

structure Ext (L : Lang A P V) (s s' : St A P V) : Prop where
  frame : Frame s s'
  asg : asgOf L s' = asgOf L s
  started : ∀ a, started s a = true → started s' a = true
  evald : ∀ a i, stOf s a i = .evaluated → stOf s' a i = .evaluated ∧ vOf L s' a i = vOf L s a i
  cyc : ∀ a i, stOf s a i = .cycle → stOf s' a i = .cycle
  idle : ∀ a i, stOf s' a i = .uneval → stOf s a i = .uneval ∧ vOf L s' a i = vOf L s a i

theorem Ext.refl (L : Lang A P V) (s : St A P V) : Ext L s s :=
  ⟨Frame.refl s, rfl, fun _ h => h, fun _ _ h => ⟨h, rfl⟩, fun _ _ h => h, fun _ _ h => ⟨h, rfl⟩⟩

theorem Ext.trans {L : Lang A P V} {s s' s'' : St A P V} (h : Ext L s s') (h' : Ext L s' s'') :
    Ext L s s'' :=
  ⟨h.frame.trans h'.frame, h'.asg.trans h.asg, fun a x => h'.started a (h.started a x),
    fun a i x => ⟨(h'.evald a i (h.evald a i x).1).1,
      ((h'.evald a i (h.evald a i x).1).2).trans (h.evald a i x).2⟩,
    fun a i x => h'.cyc a i (h.cyc a i x),
    fun a i x => ⟨(h.idle a i (h'.idle a i x).1).1,
      (h'.idle a i x).2.trans (h.idle a i (h'.idle a i x).1).2⟩⟩

/-- The node of a cell. -/
def nodeOf (L : Lang A P V) (c : A × Nat) : A × Node P := (c.1, ⟨L.phylum c.1, c.2⟩)

/-- Why an evaluation of `x` threw `e`. `K` are cells already in state CYCLE and not being
evaluated. -/
def Why (L : Lang A P V) (asg : A → Nat → Option V) (K : Set (A × Nat)) (x : A × Node P) :
    Exc → Prop
  | .tooLate => False
  | .undefined => ∃ y, Relation.ReflTransGen (Demands L asg) x y ∧ asg y.1 y.2.index = none ∧
      Reaches L asg (L.compute y.1 y.2) .undef
  | .badPhylum => ∃ y, Relation.ReflTransGen (Demands L asg) x y ∧ y.2.phylum ≠ L.phylum y.1
  | .cyclic => ∃ y, Relation.ReflTransGen (Demands L asg) x y ∧
      (Relation.TransGen (Demands L asg) y y ∨ (y.1, y.2.index) ∈ K)

theorem Why.mono {L : Lang A P V} {asg : A → Nat → Option V} {K K' : Set (A × Nat)}
    (hK : K ⊆ K') {x y : A × Node P} (hxy : Relation.ReflTransGen (Demands L asg) x y) {e : Exc}
    (h : Why L asg K y e) : Why L asg K' x e := by
  cases e with
  | tooLate => exact h
  | undefined => obtain ⟨z, h1, h2⟩ := h; exact ⟨z, hxy.trans h1, h2⟩
  | badPhylum => obtain ⟨z, h1, h2⟩ := h; exact ⟨z, hxy.trans h1, h2⟩
  | cyclic =>
    obtain ⟨z, h1, h2⟩ := h
    exact ⟨z, hxy.trans h1, h2.imp id (fun h => hK h)⟩

/-- Specification of `evaluate`. -/
def EvalSpec (L : Lang A P V) (rec : A → Node P → St A P V → Out A P V V) : Prop :=
  ∀ (T : Set (A × Nat)) (a : A) (n : Node P) (s : St A P V), Inv L T s →
    (∀ t ∈ T, Relation.TransGen (Demands L (asgOf L s)) (nodeOf L t) (a, n)) →
    match rec a n s with
    | .ok v s' => Inv L T s' ∧ Ext L s s' ∧ Kof s' = Kof s ∧
        Runs L (asgOf L s) (Sof s') (.read a n .ret) v ∧
        (stOf s' a n.index = .evaluated ∨ stOf s' a n.index = .assigned) ∧
        vOf L s' a n.index = v
    | .exc e s' => Inv L T s' ∧ Ext L s s' ∧
        Blocked L (asgOf L s) (Sof s') (Kof s') (.read a n .ret) ∧
        Why L (asgOf L s) (Kof s \ T) (a, n) e
    | .ub => True
    | .nofuel => True

theorem Runs.den {L : Lang A P V} {asg : A → Nat → Option V} {S : A → Prop} {a n v}
    (h : Runs L asg S (.read a n .ret) v) : Den L asg a n v :=
  h.mono (fun _ _ => trivial) (fun _ _ _ => rfl)

theorem Reaches.trans {L : Lang A P V} {asg : A → Nat → Option V} {c c' c'' : Comp A P V}
    (h : Reaches L asg c c') (h' : Reaches L asg c' c'') : Reaches L asg c c'' := by
  induction h with
  | here c => exact h'
  | step h1 _ ih => exact .step h1 (ih h')

theorem runComp_spec {L : Lang A P V} {rec : A → Node P → St A P V → Out A P V V}
    (hrec : EvalSpec L rec) (T : Set (A × Nat)) (z : A × Node P) (c : Comp A P V)
    (s : St A P V) (hi : Inv L T s) (hz : asgOf L s z.1 z.2.index = none)
    (hr : Reaches L (asgOf L s) (L.compute z.1 z.2) c)
    (hT : ∀ t ∈ T, Relation.ReflTransGen (Demands L (asgOf L s)) (nodeOf L t) z) :
    match runComp rec c s with
    | .ok v s' => Inv L T s' ∧ Ext L s s' ∧ Kof s' = Kof s ∧ Runs L (asgOf L s) (Sof s') c v
    | .exc e s' => Inv L T s' ∧ Ext L s s' ∧ Blocked L (asgOf L s) (Sof s') (Kof s') c ∧
        Why L (asgOf L s) (Kof s \ T) z e
    | .ub => True
    | .nofuel => True := by
  induction c generalizing s with
  | ret v => exact ⟨hi, Ext.refl L s, rfl, .ret v⟩
  | undef => exact ⟨hi, Ext.refl L s, .undef, z, .refl, hz, hr⟩
  | read b m k ih =>
    have hd : Demands L (asgOf L s) z (b, m) := ⟨hz, k, hr⟩
    have h1 := hrec T b m s hi (fun t ht => Relation.TransGen.tail' (hT t ht) hd)
    simp only [runComp]
    cases hb : rec b m s with
    | ub => exact trivial
    | nofuel => exact trivial
    | exc e s1 =>
      rw [hb] at h1
      obtain ⟨h1, h2, h3, h4⟩ := h1
      refine ⟨h1, h2, ?_, Why.mono (le_refl _) (Relation.ReflTransGen.single hd) h4⟩
      cases h3 with
      | bad g => exact .bad g
      | stuck g1 g2 g3 => exact .stuck g1 g2 g3
      | step g1 g2 => cases g2
    | ok w s1 =>
      rw [hb] at h1
      obtain ⟨h1, h2, h3, h4, _⟩ := h1
      have hr' : Reaches L (asgOf L s) (L.compute z.1 z.2) (k w) :=
        hr.trans (.step h4.den (.here _))
      have h5 := ih w s1 h1 (by rw [h2.asg]; exact hz) (by rw [h2.asg]; exact hr')
        (by rw [h2.asg]; exact hT)
      simp only [Out.bind]
      rw [h2.asg, h3] at h5
      cases hk : runComp rec (k w) s1 with
      | ub => exact trivial
      | nofuel => exact trivial
      | exc e s2 =>
        rw [hk] at h5
        obtain ⟨g1, g2, g3, g4⟩ := h5
        exact ⟨g1, h2.trans g2, .step (h4.mono g2.started (fun _ _ _ => rfl)) g3, g4⟩
      | ok v s2 =>
        rw [hk] at h5
        obtain ⟨g1, g2, g3, g4⟩ := h5
        exact ⟨g1, h2.trans g2, g3.trans rfl,
          (h4.mono g2.started (fun _ _ _ => rfl)).read_ret_step g4⟩

theorem asgOf_congr {L : Lang A P V} {s s' : St A P V} (h1 : stOf s' = stOf s)
    (h2 : vOf L s' = vOf L s) : asgOf L s' = asgOf L s := by
  funext a i; simp only [asgOf, h1, h2]

theorem Inv.congr {L : Lang A P V} {T : Set (A × Nat)} {s s' : St A P V} (hi : Inv L T s)
    (hw : WF L s') (h1 : stOf s' = stOf s) (h2 : vOf L s' = vOf L s)
    (h3 : ∀ b, started s b = true → started s' b = true) (h4 : s'.log = s.log) : Inv L T s' := by
  have ha := asgOf_congr h1 h2
  have hk : Kof s' = Kof s := by unfold Kof; rw [h1]
  refine ⟨hw, ?_, ?_, ?_, by rw [h4]; exact hi.nodup, ?_⟩
  · intro a i h
    rw [h1] at h
    obtain ⟨g1, g2⟩ := hi.evald a i h
    rw [ha, h2]
    exact ⟨h3 a g1, g2.mono h3 (fun _ _ _ => rfl)⟩
  · intro a i h; rw [h1] at h; exact h3 a (hi.cyc a i h)
  · intro a i h hT
    rw [h1] at h
    rw [ha, hk]
    exact (hi.stuck a i h hT).mono h3 (fun _ _ _ => rfl) (le_refl _)
      (fun c hc => hi.cyc _ _ hc)
  · intro a i; rw [h4, h1]; exact hi.log a i

theorem evalBase_spec {L : Lang A P V} (hL : ∀ a, L.circular a = false)
    {rec : A → Node P → St A P V → Out A P V V} (hrec : EvalSpec L rec) :
    EvalSpec L (evalBase L rec) := by
  intro T a n s hi hT
  rcases evalBase_cases L rec hi.wf a n (hL a) with ⟨_, e⟩ | ⟨h1, h2, e⟩ |
    ⟨h1, h2, s1, w1, f1, b1, c1, ⟨g, a1, l1, e⟩ | ⟨g, a1, l1, e⟩ | ⟨g, a1, l1, hrest⟩⟩
  · rw [e]; exact trivial
  · rw [e]
    exact ⟨hi, Ext.refl L s, .bad h2, (a, n), .refl, h2⟩
  · rw [e]
    have hs1 : ∀ b, started s b = true → started s1 b = true := fun b hb => (c1 b).2 (Or.inl hb)
    have ha := asgOf_congr a1 b1
    have hn : asgOf L s a n.index = none := by simp [asgOf, g]
    refine ⟨hi.congr w1 a1 b1 hs1 l1, ⟨f1, ha, hs1, ?_, ?_, ?_⟩, ?_, ?_⟩
    · intro b i h; rw [a1, b1]; exact ⟨h, rfl⟩
    · intro b i h; rw [a1]; exact h
    · intro b i h; rw [a1] at h; rw [b1]; exact ⟨h, rfl⟩
    · exact .stuck h2 (by simp only [Kof, a1, Set.mem_ofPred_eq]; exact g) hn
    · refine ⟨(a, n), .refl, ?_⟩
      by_cases hmem : (a, n.index) ∈ T
      · left
        have := hT _ hmem
        simp only [nodeOf] at this
        rw [← h2] at this
        exact this
      · right; exact ⟨g, hmem⟩
  · rw [e]
    have hs1 : ∀ b, started s b = true → started s1 b = true := fun b hb => (c1 b).2 (Or.inl hb)
    have ha := asgOf_congr a1 b1
    refine ⟨hi.congr w1 a1 b1 hs1 l1, ⟨f1, ha, hs1, ?_, ?_, ?_⟩, by unfold Kof; rw [a1], ?_, ?_, ?_⟩
    · intro b i h; rw [a1, b1]; exact ⟨h, rfl⟩
    · intro b i h; rw [a1]; exact h
    · intro b i h; rw [a1] at h; rw [b1]; exact ⟨h, rfl⟩
    · have hSa : Sof s1 a := (c1 a).2 (Or.inr rfl)
      rcases g with g | g
      · have g' := (hi.evald a n.index g).2
        rw [← h2] at g'
        refine .eqn h2 hSa (by simp [asgOf, g]) (g'.mono hs1 (fun _ _ _ => rfl)) (.ret _)
      · refine .given h2 hSa (by simp [asgOf, g]) (.ret _)
    · rw [a1]; exact g
    · rw [b1]
  · have hs1 : ∀ b, started s b = true → started s1 b = true := fun b hb => (c1 b).2 (Or.inl hb)
    have hna : stOf s a n.index ≠ .assigned := by rcases g with g | g <;> rw [g] <;> decide
    have hnc : stOf s a n.index ≠ .cycle := by rcases g with g | g <;> rw [g] <;> decide
    have hne : stOf s a n.index ≠ .evaluated := by rcases g with g | g <;> rw [g] <;> decide
    have ha : asgOf L s1 = asgOf L s := by
      funext b i
      unfold asgOf
      rw [a1, b1]
      by_cases hbi : b = a ∧ i = n.index
      · obtain ⟨rfl, rfl⟩ := hbi; simp [hna]
      · rw [upd_ne _ hbi]
    have hn : asgOf L s a n.index = none := by simp [asgOf, hna]
    have hk1 : Kof s1 = insert (a, n.index) (Kof s) := by
      ext ⟨b, i⟩
      simp only [Kof, a1, Set.mem_ofPred_eq, Set.mem_insert_iff, Prod.mk.injEq]
      by_cases hbi : b = a ∧ i = n.index
      · obtain ⟨rfl, rfl⟩ := hbi; simp
      · rw [upd_ne _ hbi]; simp [hbi]
    have hsa1 : started s1 a = true := (c1 a).2 (Or.inr rfl)
    have hi1 : Inv L (insert (a, n.index) T) s1 := by
      refine ⟨w1, ?_, ?_, ?_, ?_, ?_⟩
      · intro b i h
        have hbi : ¬ (b = a ∧ i = n.index) := by
          rintro ⟨rfl, rfl⟩; rw [a1, upd_same] at h; cases h
        rw [a1, upd_ne _ hbi] at h
        obtain ⟨g1, g2⟩ := hi.evald b i h
        rw [ha, b1]
        exact ⟨hs1 b g1, g2.mono hs1 (fun _ _ _ => rfl)⟩
      · intro b i h
        by_cases hbi : b = a ∧ i = n.index
        · rw [hbi.1]; exact hsa1
        · rw [a1, upd_ne _ hbi] at h; exact hs1 b (hi.cyc b i h)
      · intro b i h hT
        have hbi : ¬ (b = a ∧ i = n.index) := by
          rintro ⟨rfl, rfl⟩; exact hT (Set.mem_insert _ _)
        rw [a1, upd_ne _ hbi] at h
        rw [ha, hk1]
        exact (hi.stuck b i h (fun hc => hT (Set.mem_insert_of_mem _ hc))).mono hs1
          (fun _ _ _ => rfl) (Set.subset_insert _ _) (fun c hc => hi.cyc _ _ hc)
      · rw [l1]
        refine List.nodup_append.2 ⟨hi.nodup, by simp, ?_⟩
        intro x hx y hy
        simp only [List.mem_singleton] at hy
        subst hy
        rintro rfl
        have := (hi.log _ _).1 hx
        rcases this with h | h
        · exact hnc h
        · exact hne h
      · intro b i
        rw [l1, List.mem_append, hi.log, a1]
        by_cases hbi : b = a ∧ i = n.index
        · obtain ⟨rfl, rfl⟩ := hbi; simp
        · rw [upd_ne _ hbi]
          have : ¬ ((b, i) ∈ [(a, n.index)]) := by simpa using hbi
          simp [this]
    have hT1 : ∀ t ∈ insert (a, n.index) T,
        Relation.ReflTransGen (Demands L (asgOf L s)) (nodeOf L t) (a, n) := by
      intro t ht
      rcases ht with rfl | ht
      · simp only [nodeOf]; rw [← h2]
      · exact (hT t ht).to_reflTransGen
    have hrun := runComp_spec hrec (insert (a, n.index) T) (a, n) (L.compute a n) s1 hi1
      (by rw [ha]; exact hn) (.here _) (by rw [ha]; exact hT1)
    rw [ha, hk1] at hrun
    have hdiff : (insert (a, n.index) (Kof s)) \ (insert (a, n.index) T) ⊆ Kof s \ T := by
      rintro c ⟨hc1, hc2⟩
      refine ⟨?_, fun h => hc2 (Set.mem_insert_of_mem _ h)⟩
      rcases hc1 with rfl | hc1
      · exact absurd (Set.mem_insert _ _) hc2
      · exact hc1
    have hext1 : Ext L s s1 := by
      refine ⟨f1, ha, hs1, ?_, ?_, ?_⟩
      · intro b i h
        have hbi : ¬ (b = a ∧ i = n.index) := by rintro ⟨rfl, rfl⟩; exact hne h
        rw [a1, b1, upd_ne _ hbi]; exact ⟨h, rfl⟩
      · intro b i h
        have hbi : ¬ (b = a ∧ i = n.index) := by rintro ⟨rfl, rfl⟩; exact hnc h
        rw [a1, upd_ne _ hbi]; exact h
      · intro b i h
        have hbi : ¬ (b = a ∧ i = n.index) := by
          rintro ⟨rfl, rfl⟩; rw [a1, upd_same] at h; cases h
        rw [a1, upd_ne _ hbi] at h; rw [b1]; exact ⟨h, rfl⟩
    rcases hrest with ⟨e, s2, r, q⟩ | ⟨r, q⟩ | ⟨r, q⟩ | ⟨v, s2, r, q⟩
    · rw [q]; rw [r] at hrun
      obtain ⟨g1, g2, g3, g4⟩ := hrun
      have hk2 : (a, n.index) ∈ Kof s2 := g2.cyc a n.index (by rw [a1, upd_same])
      refine ⟨⟨g1.wf, g1.evald, g1.cyc, ?_, g1.nodup, g1.log⟩, hext1.trans g2,
        .stuck h2 hk2 hn, Why.mono hdiff .refl g4⟩
      intro b i h hbT
      by_cases hbi : b = a ∧ i = n.index
      · obtain ⟨rfl, rfl⟩ := hbi
        rw [← h2, g2.asg, ha]
        exact g3
      · refine g1.stuck b i h ?_
        rintro (h | h)
        · cases h; exact hbi ⟨rfl, rfl⟩
        · exact hbT h
    · rw [q]; exact trivial
    · rw [q]; exact trivial
    · rw [r] at hrun
      obtain ⟨g1, g2, g3, g4⟩ := hrun
      have hc2 : stOf s2 a n.index = .cycle := g2.cyc a n.index (by rw [a1, upd_same])
      have hsa2 : started s2 a = true := g2.started a hsa1
      obtain ⟨s3, q, w3, f3, a3, b3, c3, d3⟩ := q g1.wf hc2 (f1.trans g2.frame)
      rw [q]
      have ha2 : asgOf L s2 = asgOf L s := g2.asg.trans ha
      have ha3 : asgOf L s3 = asgOf L s := by
        rw [← ha2]
        funext b i
        unfold asgOf
        rw [a3, b3]
        by_cases hbi : b = a ∧ i = n.index
        · obtain ⟨rfl, rfl⟩ := hbi; simp [hc2]
        · rw [upd_ne _ hbi, upd_ne _ hbi]
      have hk3 : Kof s3 = Kof s := by
        ext ⟨b, i⟩
        have h2' : ((b, i) ∈ Kof s2 ↔ (b, i) ∈ insert (a, n.index) (Kof s)) := by rw [g3]
        simp only [Kof, Set.mem_ofPred_eq, Set.mem_insert_iff, Prod.mk.injEq] at h2' ⊢
        rw [a3]
        by_cases hbi : b = a ∧ i = n.index
        · obtain ⟨rfl, rfl⟩ := hbi; simp [hnc]
        · rw [upd_ne _ hbi, h2']; simp [hbi]
      have hS3 : Sof s3 = Sof s2 := by unfold Sof; rw [c3]
      have hss3 : ∀ b, started s b = true → started s3 b = true := by
        intro b hb; rw [c3]; exact g2.started b (hs1 b hb)
      refine ⟨⟨w3, ?_, ?_, ?_, by rw [d3]; exact g1.nodup, ?_⟩, ⟨(f1.trans g2.frame).trans f3, ha3, hss3, ?_, ?_, ?_⟩, hk3, ?_, ?_, ?_⟩
      · intro b i h
        rw [ha3, hS3, b3]
        by_cases hbi : b = a ∧ i = n.index
        · obtain ⟨rfl, rfl⟩ := hbi
          rw [upd_same, ← h2]
          exact ⟨by rw [c3]; exact hsa2, g4⟩
        · rw [upd_ne _ hbi]
          rw [a3, upd_ne _ hbi] at h
          obtain ⟨x1, x2⟩ := g1.evald b i h
          rw [ha2] at x2
          exact ⟨by rw [c3]; exact x1, x2⟩
      · intro b i h
        by_cases hbi : b = a ∧ i = n.index
        · obtain ⟨rfl, rfl⟩ := hbi; rw [a3, upd_same] at h; cases h
        · rw [a3, upd_ne _ hbi] at h; rw [c3]; exact g1.cyc b i h
      · intro b i h hbT
        have hb0 : (b, i) ∈ Kof s := by rw [← hk3]; exact h
        rw [ha3, hk3]
        exact (hi.stuck b i hb0 hbT).mono hss3 (fun _ _ _ => rfl) (le_refl _)
          (fun c hc => hi.cyc _ _ hc)
      · intro b i
        rw [d3, g1.log, a3]
        by_cases hbi : b = a ∧ i = n.index
        · obtain ⟨rfl, rfl⟩ := hbi; simp [hc2]
        · rw [upd_ne _ hbi]
      · intro b i h
        have hbi : ¬ (b = a ∧ i = n.index) := by rintro ⟨rfl, rfl⟩; exact hne h
        rw [a3, b3, upd_ne _ hbi, upd_ne _ hbi]
        exact (hext1.trans g2).evald b i h
      · intro b i h
        have hbi : ¬ (b = a ∧ i = n.index) := by rintro ⟨rfl, rfl⟩; exact hnc h
        rw [a3, upd_ne _ hbi]
        exact (hext1.trans g2).cyc b i h
      · intro b i h
        have hbi : ¬ (b = a ∧ i = n.index) := by
          rintro ⟨rfl, rfl⟩; rw [a3, upd_same] at h; cases h
        rw [a3, upd_ne _ hbi] at h; rw [b3, upd_ne _ hbi]
        exact (hext1.trans g2).idle b i h
      · rw [hS3]
        exact .eqn h2 hsa2 hn g4 (.ret _)
      · rw [a3, upd_same]; exact Or.inl rfl
      · rw [b3, upd_same]

theorem evaluate_spec {L : Lang A P V} (hL : ∀ a, L.circular a = false) (f : Nat) :
    EvalSpec L (evaluate L f) := by
  induction f with
  | zero => intro T a n s _ _; exact trivial
  | succ f ih =>
    have := evalBase_spec hL ih
    intro T a n s hi hT
    have h := this T a n s hi hT
    simp only [evaluate, hL a]
    exact h

end Aps.Runtime
