import Verif.Spec.Runtime
import Mathlib.Tactic.Common
set_option linter.unusedSectionVars false
set_option linter.unusedVariables false
/-! Views of the runtime state and what the primitive operations do to them. -/
namespace Aps.Runtime
variable {A P V : Type} [DecidableEq A] [DecidableEq P]

def stOf (s : St A P V) (a : A) (i : Nat) : Status := ((s.attr a).stat[i]?).getD .uninit
def vOf (L : Lang A P V) (s : St A P V) (a : A) (i : Nat) : V := ((s.attr a).vals[i]?).getD L.dflt
def started (s : St A P V) (a : A) : Bool := (s.attr a).started

def upd (f : A → Nat → α) (a : A) (i : Nat) (x : α) : A → Nat → α :=
  fun b j => if b = a ∧ j = i then x else f b j

@[simp] theorem upd_same {α : Type} (f : A → Nat → α) (a i x) : upd f a i x a i = x := by
  simp [upd]

theorem upd_ne {α : Type} (f : A → Nat → α) {a i x b j} (h : ¬ (b = a ∧ j = i)) :
    upd f a i x b j = f b j := by simp [upd, h]

structure WF (L : Lang A P V) (s : St A P V) : Prop where
  len : ∀ a, (s.attr a).vals.length = (s.attr a).stat.length
  bound : ∀ a, (s.attr a).stat.length ≤ (s.phyla (L.phylum a)).count

structure Frame (s s' : St A P V) : Prop where
  phyla : s'.phyla = s.phyla
  pending : s'.pending = s.pending
  checks : s'.checks = s.checks

theorem Frame.refl (s : St A P V) : Frame s s := ⟨rfl, rfl, rfl⟩
theorem Frame.trans {s s' s'' : St A P V} (h : Frame s s') (h' : Frame s' s'') : Frame s s'' :=
  ⟨h'.1.trans h.1, h'.2.trans h.2, h'.3.trans h.3⟩

theorem getElem?_resize {α : Type} (n : Nat) (d : α) (l : List α) (i : Nat) :
    (resize n d l)[i]? = if i < n then some ((l[i]?).getD d) else none := by
  unfold resize
  rw [List.getElem?_append]
  simp only [List.length_take, List.getElem?_take, List.getElem?_replicate]
  by_cases hi : i < n
  · by_cases hl : i < l.length
    · rw [if_pos (by omega)]; simp [hi, hl]
    · simp only [hi, if_true]
      rw [if_neg (by omega), if_pos (by omega)]
      simp [List.getElem?_eq_none (by omega : l.length ≤ i)]
  · simp only [hi, if_false]
    split <;> simp <;> omega

@[simp] theorem length_resize {α : Type} (n : Nat) (d : α) (l : List α) :
    (resize n d l).length = n := by
  unfold resize; simp; omega

@[simp] theorem setAttr_attr_same (s : St A P V) (a : A) (x : Attr V) :
    (s.setAttr a x).attr a = x := by simp [St.setAttr]

theorem setAttr_attr (s : St A P V) (a : A) (x : Attr V) (b : A) :
    (s.setAttr a x).attr b = if b = a then x else s.attr b := rfl

@[simp] theorem setAttr_phyla (s : St A P V) (a : A) (x : Attr V) :
    (s.setAttr a x).phyla = s.phyla := rfl
@[simp] theorem setAttr_pending (s : St A P V) (a : A) (x : Attr V) :
    (s.setAttr a x).pending = s.pending := rfl
@[simp] theorem setAttr_checks (s : St A P V) (a : A) (x : Attr V) :
    (s.setAttr a x).checks = s.checks := rfl
@[simp] theorem setAttr_log (s : St A P V) (a : A) (x : Attr V) :
    (s.setAttr a x).log = s.log := rfl

theorem stOf_lt {s : St A P V} {a : A} {i : Nat} (h : stOf s a i ≠ .uninit) :
    i < (s.attr a).stat.length := by
  by_contra hc
  exact h (by simp [stOf, List.getElem?_eq_none (by omega : (s.attr a).stat.length ≤ i)])

theorem stat_get {s : St A P V} {a : A} {i : Nat} (h : i < (s.attr a).stat.length) :
    (s.attr a).stat[i]? = some (stOf s a i) := by
  simp [stOf, List.getElem?_eq_getElem h]

theorem vals_get {L : Lang A P V} {s : St A P V} {a : A} {i : Nat}
    (h : i < (s.attr a).vals.length) : (s.attr a).vals[i]? = some (vOf L s a i) := by
  simp [vOf, List.getElem?_eq_getElem h]

/-- Growing (or cutting above all cells) keeps the views. -/
theorem resize_attr_spec (L : Lang A P V) {s : St A P V} (hw : WF L s) (a : A) (k : Nat)
    (hk : (s.attr a).stat.length ≤ k) (hb : k ≤ (s.phyla (L.phylum a)).count) :
    let s' := s.setAttr a { s.attr a with
      vals := resize k L.dflt (s.attr a).vals, stat := resize k .uninit (s.attr a).stat }
    WF L s' ∧ Frame s s' ∧ stOf s' = stOf s ∧ vOf L s' = vOf L s ∧ started s' = started s ∧
      s'.log = s.log ∧ (s'.attr a).stat.length = k := by
  refine ⟨⟨?_, ?_⟩, ⟨rfl, rfl, rfl⟩, ?_, ?_, ?_, rfl, ?_⟩
  · intro b
    by_cases hba : b = a
    · subst hba; simp
    · simp [setAttr_attr, hba, hw.len b]
  · intro b
    by_cases hba : b = a
    · subst hba; simpa using hb
    · simpa [setAttr_attr, hba] using hw.bound b
  · funext b j
    by_cases hba : b = a
    · subst hba
      simp only [stOf, setAttr_attr_same, getElem?_resize]
      split
      · simp
      · rw [List.getElem?_eq_none (by omega)]
    · simp [stOf, setAttr_attr, hba]
  · funext b j
    by_cases hba : b = a
    · subst hba
      simp only [vOf, setAttr_attr_same, getElem?_resize]
      split
      · simp
      · have := hw.len b
        rw [List.getElem?_eq_none (by omega)]
    · simp [vOf, setAttr_attr, hba]
  · funext b
    by_cases hba : b = a
    · subst hba; simp [started]
    · simp [started, setAttr_attr, hba]
  · simp

theorem checkPhylum_cases (L : Lang A P V) {s : St A P V} (hw : WF L s) (a : A) (n : Node P) :
    ((s.phyla n.phylum).count ≤ n.index ∧ checkPhylum L a n s = .ub) ∨
    (n.index < (s.phyla n.phylum).count ∧ n.phylum ≠ L.phylum a ∧
      checkPhylum L a n s = .exc .badPhylum s) ∨
    (n.index < (s.phyla n.phylum).count ∧ n.phylum = L.phylum a ∧
      ∃ s', checkPhylum L a n s = .ok () s' ∧ WF L s' ∧ Frame s s' ∧ stOf s' = stOf s ∧
        vOf L s' = vOf L s ∧ started s' = started s ∧ s'.log = s.log ∧
        n.index < (s'.attr a).stat.length) := by
  unfold checkPhylum
  by_cases h1 : (s.phyla n.phylum).count ≤ n.index
  · left; simp [h1]
  · right
    by_cases h2 : n.phylum = L.phylum a
    · right
      refine ⟨by omega, h2, ?_⟩
      simp only [h1, if_false, h2, ne_eq, not_true_eq_false]
      rw [if_neg (by rw [← h2]; exact h1)]
      by_cases h3 : (s.attr a).vals.length ≤ n.index
      · simp only [h3, if_true]
        have hl := hw.len a
        obtain ⟨h4, h5, h6, h7, h8, h9, h10⟩ := resize_attr_spec L hw a (n.index + 1) (by omega)
          (by rw [← h2]; omega)
        exact ⟨_, rfl, h4, h5, h6, h7, h8, h9, by simp⟩
      · simp only [h3, if_false]
        exact ⟨s, rfl, hw, Frame.refl s, rfl, rfl, rfl, rfl, by have := hw.len a; omega⟩
    · left
      refine ⟨by omega, h2, by simp [h1, h2]⟩

theorem writeVal_spec (L : Lang A P V) {s : St A P V} (hw : WF L s) (a : A) (i : Nat) (v : V)
    (hi : i < (s.attr a).stat.length) :
    ∃ s', writeVal a i v s = .ok () s' ∧ WF L s' ∧ Frame s s' ∧ stOf s' = stOf s ∧
      vOf L s' = upd (vOf L s) a i v ∧ started s' = started s ∧ s'.log = s.log ∧
      (s'.attr a).stat.length = (s.attr a).stat.length := by
  have hl := hw.len a
  unfold writeVal
  rw [if_pos (by omega)]
  refine ⟨_, rfl, ⟨?_, ?_⟩, ⟨rfl, rfl, rfl⟩, ?_, ?_, ?_, rfl, by simp⟩
  · intro b
    by_cases hba : b = a
    · subst hba; simp [hl]
    · simp [setAttr_attr, hba, hw.len b]
  · intro b
    by_cases hba : b = a
    · subst hba; simpa using hw.bound b
    · simpa [setAttr_attr, hba] using hw.bound b
  · funext b j
    by_cases hba : b = a
    · subst hba; simp [stOf]
    · simp [stOf, setAttr_attr, hba]
  · funext b j
    by_cases hba : b = a
    · subst hba
      by_cases hj : j = i
      · subst hj
        simp only [vOf, setAttr_attr_same, upd_same]
        rw [List.getElem?_set_self (by omega)]; rfl
      · rw [upd_ne _ (by simp [hj])]
        simp only [vOf, setAttr_attr_same]
        rw [List.getElem?_set_ne (by omega)]
    · rw [upd_ne _ (by simp [hba])]
      simp [vOf, setAttr_attr, hba]
  · funext b
    by_cases hba : b = a
    · subst hba; simp [started]
    · simp [started, setAttr_attr, hba]

theorem writeStat_spec (L : Lang A P V) {s : St A P V} (hw : WF L s) (a : A) (i : Nat)
    (t : Status) (hi : i < (s.attr a).stat.length) :
    ∃ s', writeStat a i t s = .ok () s' ∧ WF L s' ∧ Frame s s' ∧ stOf s' = upd (stOf s) a i t ∧
      vOf L s' = vOf L s ∧ started s' = started s ∧ s'.log = s.log ∧
      (s'.attr a).stat.length = (s.attr a).stat.length := by
  unfold writeStat
  rw [if_pos hi]
  refine ⟨_, rfl, ⟨?_, ?_⟩, ⟨rfl, rfl, rfl⟩, ?_, ?_, ?_, rfl, by simp⟩
  · intro b
    by_cases hba : b = a
    · subst hba; simp [hw.len b]
    · simp [setAttr_attr, hba, hw.len b]
  · intro b
    by_cases hba : b = a
    · subst hba; simpa using hw.bound b
    · simpa [setAttr_attr, hba] using hw.bound b
  · funext b j
    by_cases hba : b = a
    · subst hba
      by_cases hj : j = i
      · subst hj
        simp only [stOf, setAttr_attr_same, upd_same]
        rw [List.getElem?_set_self hi]; rfl
      · rw [upd_ne _ (by simp [hj])]
        simp only [stOf, setAttr_attr_same]
        rw [List.getElem?_set_ne (by omega)]
    · rw [upd_ne _ (by simp [hba])]
      simp [stOf, setAttr_attr, hba]
  · funext b j
    by_cases hba : b = a
    · subst hba; simp [vOf]
    · simp [vOf, setAttr_attr, hba]
  · funext b
    by_cases hba : b = a
    · subst hba; simp [started]
    · simp [started, setAttr_attr, hba]

theorem readVal_spec (L : Lang A P V) {s : St A P V} (hw : WF L s) (a : A) (i : Nat)
    (hi : i < (s.attr a).stat.length) : readVal a i s = .ok (vOf L s a i) s := by
  have := hw.len a
  simp [readVal, vals_get (L := L) (by omega : i < (s.attr a).vals.length)]

theorem baseSet_cases (L : Lang A P V) {s : St A P V} (hw : WF L s) (a : A) (n : Node P) (v : V) :
    ((s.phyla n.phylum).count ≤ n.index ∧ baseSet L a n v s = .ub) ∨
    (n.index < (s.phyla n.phylum).count ∧ n.phylum ≠ L.phylum a ∧
      baseSet L a n v s = .exc .badPhylum s) ∨
    (n.index < (s.phyla n.phylum).count ∧ n.phylum = L.phylum a ∧
      ∃ s', baseSet L a n v s = .ok () s' ∧ WF L s' ∧ Frame s s' ∧
        stOf s' = upd (stOf s) a n.index .assigned ∧ vOf L s' = upd (vOf L s) a n.index v ∧
        started s' = started s ∧ s'.log = s.log) := by
  unfold baseSet
  rcases checkPhylum_cases L hw a n with ⟨h, e⟩ | ⟨h1, h2, e⟩ | ⟨h1, h2, s1, e, w1, f1, a1, b1, c1, d1, l1⟩
  · left; exact ⟨h, by rw [e]; rfl⟩
  · right; left; exact ⟨h1, h2, by rw [e]; rfl⟩
  · right; right
    refine ⟨h1, h2, ?_⟩
    rw [e]
    obtain ⟨s2, e2, w2, f2, a2, b2, c2, d2, l2⟩ := writeVal_spec L w1 a n.index v l1
    obtain ⟨s3, e3, w3, f3, a3, b3, c3, d3, l3⟩ :=
      writeStat_spec L w2 a n.index .assigned (by omega)
    refine ⟨s3, ?_, w3, (f1.trans f2).trans f3, ?_, ?_, ?_, ?_⟩
    · simp only [Out.bind, e2, e3]
    · rw [a3, a2, a1]
    · rw [b3, b2, b1]
    · rw [c3, c2, c1]
    · rw [d3, d2, d1]

theorem get_cases (L : Lang A P V) {s : St A P V} (hw : WF L s) (a : A) (n : Node P) :
    ((s.phyla n.phylum).count ≤ n.index ∧ get L a n s = .ub) ∨
    (n.index < (s.phyla n.phylum).count ∧ n.phylum ≠ L.phylum a ∧
      get L a n s = .exc .badPhylum s) ∨
    (n.index < (s.phyla n.phylum).count ∧ n.phylum = L.phylum a ∧
      ((stOf s a n.index ≠ .uninit ∧ ∃ s', get L a n s = .ok (vOf L s a n.index) s' ∧ WF L s' ∧
          Frame s s' ∧ stOf s' = stOf s ∧ vOf L s' = vOf L s ∧ started s' = started s ∧
          s'.log = s.log) ∨
       (stOf s a n.index = .uninit ∧ L.initial a = none ∧ ∃ s', get L a n s = .exc .undefined s' ∧
          WF L s' ∧ Frame s s' ∧ stOf s' = stOf s ∧ vOf L s' = vOf L s ∧
          started s' = started s ∧ s'.log = s.log) ∨
       (∃ v, stOf s a n.index = .uninit ∧ L.initial a = some v ∧ ∃ s', get L a n s = .ok v s' ∧
          WF L s' ∧ Frame s s' ∧ stOf s' = upd (stOf s) a n.index .uneval ∧
          vOf L s' = upd (vOf L s) a n.index v ∧ started s' = started s ∧ s'.log = s.log))) := by
  unfold get
  rcases checkPhylum_cases L hw a n with ⟨h, e⟩ | ⟨h1, h2, e⟩ | ⟨h1, h2, s1, e, w1, f1, a1, b1, c1, d1, l1⟩
  · left; exact ⟨h, by rw [e]; rfl⟩
  · right; left; exact ⟨h1, h2, by rw [e]; rfl⟩
  · right; right
    refine ⟨h1, h2, ?_⟩
    rw [e]
    simp only [Out.bind, stat_get l1, a1]
    by_cases hs : stOf s a n.index = .uninit
    · right
      rw [hs]
      simp only [getDefault]
      cases hi : L.initial a with
      | none => left; exact ⟨trivial, rfl, s1, rfl, w1, f1, a1, b1, c1, d1⟩
      | some v =>
        right
        obtain ⟨s2, e2, w2, f2, a2, b2, c2, d2, l2⟩ := writeVal_spec L w1 a n.index v l1
        obtain ⟨s3, e3, w3, f3, a3, b3, c3, d3, l3⟩ :=
          writeStat_spec L w2 a n.index .uneval (by omega)
        have e4 := readVal_spec L w3 a n.index (by omega)
        refine ⟨v, trivial, rfl, s3, ?_, w3, (f1.trans f2).trans f3, ?_, ?_, ?_, ?_⟩
        · simp only [e2, e3, e4, b3, b2, upd_same]
        · rw [a3, a2, a1]
        · rw [b3, b2, b1]
        · rw [c3, c2, c1]
        · rw [d3, d2, d1]
    · left
      refine ⟨hs, s1, ?_, w1, f1, a1, b1, c1, d1⟩
      have e4 := readVal_spec L w1 a n.index l1
      rw [b1] at e4
      revert hs
      cases stOf s a n.index <;> intro hs <;> first | exact absurd rfl hs | exact e4

theorem start_spec (L : Lang A P V) {s : St A P V} (hw : WF L s) (a : A) :
    let s' := s.setAttr a { s.attr a with started := true }
    WF L s' ∧ Frame s s' ∧ stOf s' = stOf s ∧ vOf L s' = vOf L s ∧
      (∀ b, started s' b = true ↔ (started s b = true ∨ b = a)) ∧ s'.log = s.log ∧
      (∀ b, (s'.attr b).stat.length = (s.attr b).stat.length) := by
  refine ⟨⟨?_, ?_⟩, ⟨rfl, rfl, rfl⟩, ?_, ?_, ?_, rfl, ?_⟩
  · intro b; rw [setAttr_attr]; split
    · exact hw.len a
    · exact hw.len b
  · intro b; rw [setAttr_attr]; split
    · rename_i h; subst h; exact hw.bound b
    · exact hw.bound b
  · funext b j; unfold stOf; rw [setAttr_attr]; split
    · rename_i h; subst h; rfl
    · rfl
  · funext b j; unfold vOf; rw [setAttr_attr]; split
    · rename_i h; subst h; rfl
    · rfl
  · intro b; unfold started; rw [setAttr_attr]; split
    · rename_i h; simp [h]
    · rename_i h; simp [h]
  · intro b; rw [setAttr_attr]; split
    · rename_i h; subst h; rfl
    · rfl

/-- `evaluate` of a non-circular attribute, seen through the views. -/
theorem evalBase_cases (L : Lang A P V) (rec : A → Node P → St A P V → Out A P V V)
    {s : St A P V} (hw : WF L s) (a : A) (n : Node P) (hc : L.circular a = false) :
    ((s.phyla n.phylum).count ≤ n.index ∧ evalBase L rec a n s = .ub) ∨
    (n.index < (s.phyla n.phylum).count ∧ n.phylum ≠ L.phylum a ∧
      evalBase L rec a n s = .exc .badPhylum s) ∨
    (n.index < (s.phyla n.phylum).count ∧ n.phylum = L.phylum a ∧ ∃ s1 : St A P V,
      WF L s1 ∧ Frame s s1 ∧ vOf L s1 = vOf L s ∧
      (∀ b, started s1 b = true ↔ (started s b = true ∨ b = a)) ∧
      ((stOf s a n.index = .cycle ∧ stOf s1 = stOf s ∧ s1.log = s.log ∧
          evalBase L rec a n s = .exc .cyclic s1) ∨
       ((stOf s a n.index = .evaluated ∨ stOf s a n.index = .assigned) ∧ stOf s1 = stOf s ∧
          s1.log = s.log ∧ evalBase L rec a n s = .ok (vOf L s a n.index) s1) ∨
       ((stOf s a n.index = .uninit ∨ stOf s a n.index = .uneval) ∧
          stOf s1 = upd (stOf s) a n.index .cycle ∧ s1.log = s.log ++ [(a, n.index)] ∧
          ((∃ e s2, runComp rec (L.compute a n) s1 = .exc e s2 ∧
              evalBase L rec a n s = .exc e s2) ∨
           (runComp rec (L.compute a n) s1 = .ub ∧ evalBase L rec a n s = .ub) ∨
           (runComp rec (L.compute a n) s1 = .nofuel ∧ evalBase L rec a n s = .nofuel) ∨
           (∃ v s2, runComp rec (L.compute a n) s1 = .ok v s2 ∧
              (WF L s2 → stOf s2 a n.index = .cycle → Frame s s2 → ∃ s3,
                evalBase L rec a n s = .ok v s3 ∧ WF L s3 ∧ Frame s2 s3 ∧
                stOf s3 = upd (stOf s2) a n.index .evaluated ∧
                vOf L s3 = upd (vOf L s2) a n.index v ∧
                started s3 = started s2 ∧ s3.log = s2.log)))))) := by
  unfold evalBase
  rcases checkPhylum_cases L hw a n with ⟨h, e⟩ | ⟨h1, h2, e⟩ | ⟨h1, h2, s1, e, w1, f1, a1, b1, c1, d1, l1⟩
  · left; exact ⟨h, by rw [e]; rfl⟩
  · right; left; exact ⟨h1, h2, by rw [e]; rfl⟩
  · right; right
    refine ⟨h1, h2, ?_⟩
    rw [e]
    simp only [Out.bind]
    obtain ⟨w2, f2, a2, b2, c2, d2, l2⟩ := start_spec L w1 a
    revert w2 f2 a2 b2 c2 d2 l2
    generalize (s1.setAttr a { s1.attr a with started := true }) = s2
    intro w2 f2 a2 b2 c2 d2 l2
    have l2' : n.index < (s2.attr a).stat.length := by rw [l2]; exact l1
    rw [stat_get l2', a2, a1]
    have hst : ∀ b, started s2 b = true ↔ (started s b = true ∨ b = a) := by
      intro b; rw [c2, c1]
    have hunst : ∀ t, (t = Status.uninit ∨ t = Status.uneval) → stOf s a n.index = t →
        ∃ s3 : St A P V, WF L s3 ∧ Frame s s3 ∧ vOf L s3 = vOf L s ∧
          (∀ b, started s3 b = true ↔ (started s b = true ∨ b = a)) ∧
          stOf s3 = upd (stOf s) a n.index .cycle ∧ s3.log = s.log ++ [(a, n.index)] ∧
          ∃ s3', writeStat a n.index .cycle s2 = .ok () s3' ∧
            s3 = { s3' with log := s3'.log ++ [(a, n.index)] } := by
      intro t ht hst'
      obtain ⟨s3, e3, w3, f3, a3, b3, c3, d3, l3⟩ := writeStat_spec L w2 a n.index .cycle l2'
      refine ⟨{ s3 with log := s3.log ++ [(a, n.index)] }, ⟨w3.1, w3.2⟩, ?_, ?_, ?_, ?_, ?_, s3, e3, rfl⟩
      · exact ⟨f3.1.trans (f2.1.trans f1.1), f3.2.trans (f2.2.trans f1.2),
          f3.3.trans (f2.3.trans f1.3)⟩
      · show vOf L s3 = vOf L s
        rw [b3, b2, b1]
      · intro b; show started s3 b = true ↔ _; rw [c3]; exact hst b
      · show stOf s3 = _; rw [a3, a2, a1]
      · show s3.log ++ _ = _; rw [d3, d2, d1]
    have hrest : ∀ (s3 : St A P V) (v : V) (s4 : St A P V), Frame s s4 → WF L s4 →
        stOf s4 a n.index = .cycle → ∃ s6,
        (((writeVal a n.index v s4).bind fun _ s =>
          (writeStat a n.index .evaluated s).bind fun _ s => get L a n s) = .ok v s6) ∧
        WF L s6 ∧ Frame s4 s6 ∧ stOf s6 = upd (stOf s4) a n.index .evaluated ∧
        vOf L s6 = upd (vOf L s4) a n.index v ∧ started s6 = started s4 ∧ s6.log = s4.log := by
      intro s3 v s4 fr4 w4 hs4
      have hl4 := stOf_lt (s := s4) (a := a) (i := n.index) (by rw [hs4]; decide)
      obtain ⟨s5, e5, w5, f5, a5, b5, c5, d5, l5⟩ := writeVal_spec L w4 a n.index v hl4
      obtain ⟨s6, e6, w6, f6, a6, b6, c6, d6, l6⟩ :=
        writeStat_spec L w5 a n.index .evaluated (by omega)
      rcases get_cases L w6 a n with ⟨g1, _⟩ | ⟨_, g2, _⟩ | ⟨_, _, ⟨_, s7, e7, w7, f7, a7, b7, c7, d7⟩ | ⟨g3, _⟩ | ⟨_, g3, _⟩⟩
      · exfalso
        have : s6.phyla = s.phyla := by rw [f6.1, f5.1, fr4.1]
        rw [this] at g1; omega
      · exact absurd h2 g2
      · refine ⟨s7, ?_, w7, (f5.trans f6).trans f7, ?_, ?_, ?_, ?_⟩
        · simp only [e5, Out.bind, e6, e7, b6, b5, upd_same]
        · rw [a7, a6, a5]
        · rw [b7, b6, b5]
        · rw [c7, c6, c5]
        · rw [d7, d6, d5]
      · rw [a6, upd_same] at g3; cases g3
      · rw [a6, upd_same] at g3; cases g3
    have hbig : ∀ t, (t = Status.uninit ∨ t = Status.uneval) → stOf s a n.index = t →
        ∃ s3 : St A P V, WF L s3 ∧ Frame s s3 ∧ vOf L s3 = vOf L s ∧
          (∀ b, started s3 b = true ↔ (started s b = true ∨ b = a)) ∧
          stOf s3 = upd (stOf s) a n.index .cycle ∧ s3.log = s.log ++ [(a, n.index)] ∧
          let r := ((writeStat a n.index .cycle s2).bind fun _ s =>
            (runComp rec (L.compute a n) { s with log := s.log ++ [(a, n.index)] }).bind fun v s =>
            (writeVal a n.index v s).bind fun _ s =>
            (writeStat a n.index .evaluated s).bind fun _ s => get L a n s)
          ((∃ e s2, runComp rec (L.compute a n) s3 = .exc e s2 ∧ r = .exc e s2) ∨
           (runComp rec (L.compute a n) s3 = .ub ∧ r = .ub) ∨
           (runComp rec (L.compute a n) s3 = .nofuel ∧ r = .nofuel) ∨
           (∃ v s2, runComp rec (L.compute a n) s3 = .ok v s2 ∧
              (WF L s2 → stOf s2 a n.index = .cycle → Frame s s2 → ∃ s3,
                r = .ok v s3 ∧ WF L s3 ∧ Frame s2 s3 ∧
                stOf s3 = upd (stOf s2) a n.index .evaluated ∧
                vOf L s3 = upd (vOf L s2) a n.index v ∧
                started s3 = started s2 ∧ s3.log = s2.log))) := by
      intro t ht hst'
      obtain ⟨s3, w3, f3, a3, b3, c3, d3, s3', e3, rfl⟩ := hunst t ht hst'
      refine ⟨_, w3, f3, a3, b3, c3, d3, ?_⟩
      simp only [e3, Out.bind]
      cases hr : runComp rec (L.compute a n) { s3' with log := s3'.log ++ [(a, n.index)] } with
      | exc e s4 => left; exact ⟨e, s4, rfl, rfl⟩
      | ub => right; left; exact ⟨rfl, rfl⟩
      | nofuel => right; right; left; exact ⟨rfl, rfl⟩
      | ok v s4 =>
        right; right; right
        refine ⟨v, s4, rfl, ?_⟩
        intro w4 hs4 fr4
        have := hrest s4 v s4 fr4 w4 hs4
        simpa only [Out.bind] using this
    cases hs : stOf s a n.index with
    | cycle =>
      refine ⟨s2, w2, f1.trans f2, by rw [b2, b1], hst, ?_⟩
      left
      exact ⟨rfl, by rw [a2, a1], by rw [d2, d1], by simp [cycleEvaluate, hc]⟩
    | evaluated =>
      rcases get_cases L w2 a n with ⟨g1, _⟩ | ⟨_, g2, _⟩ | ⟨_, _, ⟨_, s7, e7, w7, f7, a7, b7, c7, d7⟩ | ⟨g3, _⟩ | ⟨_, g3, _⟩⟩
      · exfalso
        rw [f2.1, f1.1] at g1; omega
      · exact absurd h2 g2
      · refine ⟨s7, w7, (f1.trans f2).trans f7, by rw [b7, b2, b1], by intro b; rw [c7]; exact hst b, ?_⟩
        right; left
        refine ⟨Or.inl rfl, by rw [a7, a2, a1], by rw [d7, d2, d1], ?_⟩
        simp only [e7, b2, b1]
      · rw [a2, a1, hs] at g3; cases g3
      · rw [a2, a1, hs] at g3; cases g3
    | assigned =>
      rcases get_cases L w2 a n with ⟨g1, _⟩ | ⟨_, g2, _⟩ | ⟨_, _, ⟨_, s7, e7, w7, f7, a7, b7, c7, d7⟩ | ⟨g3, _⟩ | ⟨_, g3, _⟩⟩
      · exfalso
        rw [f2.1, f1.1] at g1; omega
      · exact absurd h2 g2
      · refine ⟨s7, w7, (f1.trans f2).trans f7, by rw [b7, b2, b1], by intro b; rw [c7]; exact hst b, ?_⟩
        right; left
        refine ⟨Or.inr rfl, by rw [a7, a2, a1], by rw [d7, d2, d1], ?_⟩
        simp only [e7, b2, b1]
      · rw [a2, a1, hs] at g3; cases g3
      · rw [a2, a1, hs] at g3; cases g3
    | uninit =>
      obtain ⟨s3, w3, f3, a3, b3, c3, d3, h⟩ := hbig _ (Or.inl rfl) hs
      exact ⟨s3, w3, f3, a3, b3, Or.inr (Or.inr ⟨Or.inl rfl, c3, d3, h⟩)⟩
    | uneval =>
      obtain ⟨s3, w3, f3, a3, b3, c3, d3, h⟩ := hbig _ (Or.inr rfl) hs
      exact ⟨s3, w3, f3, a3, b3, Or.inr (Or.inr ⟨Or.inr rfl, c3, d3, h⟩)⟩

end Aps.Runtime
