import Verif.Proofs.ChunkInv
/-! The events of a run. -/
set_option linter.unusedVariables false
namespace Aps.Chunk
open Aps.Dnc Aps.Oag

theorem mem_emit {I : Input} {c : Cond} {l : List Nat} {e : Ev} :
    e ∈ emit I c l ↔ ∃ i ∈ l, ignored c (I.cond i) = false ∧ e = .inst i := by
  unfold emit
  simp only [List.mem_map, List.mem_filter, Bool.not_eq_true']
  constructor
  · rintro ⟨i, ⟨h1, h2⟩, rfl⟩; exact ⟨i, h1, h2, rfl⟩
  · rintro ⟨i, h1, h2, rfl⟩; exact ⟨i, ⟨h1, h2⟩, rfl⟩

theorem not_ignored {σ : Nat → Bool} {c d : Cond} (h : Sat σ c) (h' : Sat σ d) : ignored c d = false :=
  ignored_iff_together.2 ⟨σ, h, h'⟩

theorem evPart_of {I : Input} (hw : Wf I) {c : Cond} {y : Part} (hy : I.Has y) {e : Ev} (he : e ∈ evsOf I c y) :
    I.evPart e = y := by
  cases y with
  | left p =>
    obtain ⟨i, h1, _, rfl⟩ := mem_emit.1 he
    rw [mem_members] at h1
    exact (part_left hy.1).2 (by simpa using h1.2)
  | right p =>
    rcases List.mem_append.1 he with he | he
    · obtain ⟨i, h1, _, rfl⟩ := mem_emit.1 he
      rw [mem_members] at h1
      exact (part_right hy.1 (hw.group i h1.1)).2 (by simpa using h1.2)
    · simp only [List.mem_singleton] at he; subst he; rfl
  | visit ch p =>
    obtain ⟨_, _, hp, _⟩ := hy
    rcases List.mem_append.1 he with he | he
    · rcases List.mem_append.1 he with he | he
      · obtain ⟨i, h1, _, rfl⟩ := mem_emit.1 he
        rw [mem_members] at h1
        exact (part_visit hp (hw.group i h1.1)).2 (.inl (by simpa using h1.2))
      · simp only [List.mem_singleton] at he; subst he; rfl
    · obtain ⟨i, h1, _, rfl⟩ := mem_emit.1 he
      rw [mem_members] at h1
      exact (part_visit hp (hw.group i h1.1)).2 (.inr (by simpa using h1.2))
  | loc j =>
    obtain ⟨i, h1, _, rfl⟩ := mem_emit.1 he
    simp only [List.mem_singleton] at h1
    subst h1
    exact part_loc.2 ⟨rfl, hy.2⟩

theorem done_evsOf {I : Input} (hw : Wf I) {σ : Nat → Bool} {c : Cond} (hs : Sat σ c) {y : Part} (hy : I.Has y) :
    Done I σ y (evsOf I c y) := by
  cases y with
  | left p =>
    refine ⟨fun i hi hp hsi => ?_, by simp, by simp⟩
    exact mem_emit.2 ⟨i, mem_members.2 ⟨hi, by simpa using (part_left hy.1).1 hp⟩, not_ignored hs hsi, rfl⟩
  | right p =>
    refine ⟨fun i hi hp hsi => ?_, by simp, by simp [evsOf]⟩
    exact List.mem_append_left _
      (mem_emit.2 ⟨i, mem_members.2 ⟨hi, by simpa using (part_right hy.1 (hw.group i hi)).1 hp⟩, not_ignored hs hsi, rfl⟩)
  | visit ch p =>
    have hp1 : 1 ≤ p := by obtain ⟨_, _, h, _⟩ := hy; exact h
    refine ⟨fun i hi hp hsi => ?_, ?_, by simp⟩
    · rcases (part_visit hp1 (hw.group i hi)).1 hp with h | h
      · exact List.mem_append_left _ (List.mem_append_left _
          (mem_emit.2 ⟨i, mem_members.2 ⟨hi, by simpa using h⟩, not_ignored hs hsi, rfl⟩))
      · exact List.mem_append_right _
          (mem_emit.2 ⟨i, mem_members.2 ⟨hi, by simpa using h⟩, not_ignored hs hsi, rfl⟩)
    · intro ch' p' e
      cases e
      simp [evsOf]
  | loc j =>
    refine ⟨fun i hi hp hsi => ?_, by simp, by simp⟩
    obtain ⟨rfl, _⟩ := part_loc.1 hp
    exact mem_emit.2 ⟨i, by simp, not_ignored hs hsi, rfl⟩

theorem Done.mono {I : Input} {σ : Nat → Bool} {a : Part} {l l' : List Ev} (h : Done I σ a l) (hl : ∀ e ∈ l, e ∈ l') :
    Done I σ a l' :=
  ⟨fun i h1 h2 h3 => hl _ (h.1 i h1 h2 h3), fun ch p e => hl _ (h.2.1 ch p e), fun p e => hl _ (h.2.2 p e)⟩

theorem evsOf_nodup {I : Input} {c : Cond} {y : Part} (hy : I.Has y) : (evsOf I c y).Nodup := by
  have hem : ∀ l : List Nat, l.Nodup → (emit I c l).Nodup := by
    intro l hl
    unfold emit
    exact (hl.filter _).map (fun a b h => Ev.inst.inj h)
  have hmem : ∀ p, (I.members p).Nodup := fun p => List.nodup_range.filter _
  cases y with
  | left p => exact hem _ (hmem _)
  | right p =>
    refine List.Nodup.append (hem _ (hmem _)) (by simp) ?_
    intro e he he'
    simp only [List.mem_singleton] at he'
    subst he'
    obtain ⟨i, _, _, h⟩ := mem_emit.1 he
    cases h
  | visit ch p =>
    have hp1 : 1 ≤ p := by obtain ⟨_, _, h, _⟩ := hy; exact h
    refine List.Nodup.append (List.Nodup.append (hem _ (hmem _)) (by simp) ?_) (hem _ (hmem _)) ?_
    · intro e he he'
      simp only [List.mem_singleton] at he'
      subst he'
      obtain ⟨i, _, _, h⟩ := mem_emit.1 he
      cases h
    · intro e he he'
      obtain ⟨i, h1, _, h2⟩ := mem_emit.1 he'
      subst h2
      rcases List.mem_append.1 he with he | he
      · obtain ⟨j, h3, _, h4⟩ := mem_emit.1 he
        cases h4
        rw [mem_members] at h1 h3
        have e1 := beq_iff_eq.1 h1.2
        have e2 := beq_iff_eq.1 h3.2
        rw [e1] at e2
        have := congrArg Prod.fst e2
        simp only at this
        omega
      · simp at he
  | loc j => exact hem _ (by simp)

section
variable {I : Input} (hw : Wf I) (ho : Ordered I)
  (hent : ∀ p, 1 ≤ p → p ≤ I.parent.maxPhase → ∀ a, I.Has a → Must I a (.left p) → Early I a p)
include hw ho hent

/-- an induction principle with the invariant -/
theorem run_ind {σ : Nat → Bool} {P : Mode → Cond → List Part → Nat → List Ev → Prop}
    (finish : ∀ {c cd ph}, Sat σ c → Inv I cd ph → I.parent.maxPhase < ph → P .start c cd ph [])
    (start : ∀ {c cd ph es}, Sat σ c → InvM I .start cd ph → ph ≤ I.parent.maxPhase → (∀ a, Must I a (.left ph) → a ∈ cd) →
      InvC I (.left ph) (.left ph :: cd) ph →
      P (.comp (.left ph)) c (.left ph :: cd) ph es → P .start c cd ph (evsOf I c (.left ph) ++ es))
    (pick : ∀ {x y c cd ph es}, Sat σ c → InvC I x cd ph → Same I x y → Avail I ph cd y → (∀ p, y ≠ .right p) → (∀ p, y ≠ .left p) →
      (∀ a, Must I a y → a ∈ cd) → Run I σ (.comp x) (upd I σ c y) (y :: cd) ph es →
      P (.comp x) (upd I σ c y) (y :: cd) ph es → P (.comp x) c cd ph (evsOf I c y ++ es))
    (pickRight : ∀ {x c cd ph es}, Sat σ c → InvC I x cd ph → Same I x (.right ph) → Avail I ph cd (.right ph) →
      .left (ph + 1) ∉ cd → (∀ a, Must I a (.right ph) → a ∈ cd) → Run I σ .start c (.right ph :: cd) (ph + 1) es →
      P .start c (.right ph :: cd) (ph + 1) es → P (.comp x) c cd ph (evsOf I c (.right ph) ++ es))
    (switch : ∀ {x y c cd ph es}, Sat σ c → InvC I x cd ph → P (.comp y) c cd ph es → P (.comp x) c cd ph es) :
    ∀ {m c cd ph es}, Run I σ m c cd ph es → Sat σ c → InvM I m cd ph → P m c cd ph es := by
  intro m c cd ph es hrun
  induction hrun with
  | finish h => intro hs hi; exact finish hs hi.1 h
  | start h hr ih =>
    rename_i c cd ph es
    intro hs hi
    have hi' := hi.1.begin hw ho h hi.2 (hent _ hi.1.pos h)
    rw [if_neg hi.2]
    refine start hs hi h ?_ hi' (ih hs hi')
    intro a ha
    rcases List.mem_cons.1 (hi'.down _ (by simp) a ha) with rfl | h'
    · exfalso
      rcases ha with ⟨h1, h2⟩ | ⟨h1, h2⟩
      · exact h2 h1
      · exact h2 (.single h1)
    · exact h'
  | pick hsm hav hnr hr ih =>
    rename_i x y c cd ph es
    intro hs hi
    have hi' : InvC I x cd ph := hi
    have hp := hi'.pick hw ho hsm hav hnr
    refine pick hs hi' hsm hav hnr ?_ (fun a ha => hav.down hw ho hi' hsm ha) hr (ih (sat_upd hw hs _) hp)
    rintro p rfl
    obtain ⟨h1, h2⟩ : 1 ≤ p ∧ p ≤ I.parent.maxPhase := hav.1
    rcases Nat.lt_trichotomy p ph with h3 | rfl | h3
    · exact hav.2.1 (hi'.left p h1 h3)
    · exact hav.2.1 hi'.now
    · exact hp.lateLeft p h3 (by simp)
  | pickRight hsm hav hor hr ih =>
    rename_i x c cd ph p es
    intro hs hi
    have hi' : InvC I x cd ph := hi
    obtain rfl := hi'.right_eq hw ho hsm hav
    exact pickRight hs hi' hsm hav (fun h => (hi'.pickRight hw ho hsm hav hor).2 (List.mem_cons_of_mem _ h))
      (fun a ha => hav.down hw ho hi' hsm ha) hr (ih hs (hi'.pickRight hw ho hsm hav hor))
  | switch hno hns hcr hmax hr ih =>
    intro hs hi
    have hi' : InvC I _ _ _ := hi
    exact switch hs hi' (ih hs (hi'.switch hw ho hno hcr hmax))

theorem run_order {σ : Nat → Bool} {m : Mode} {c : Cond} {cd : List Part} {ph : Nat} {es : List Ev} (hrun : Run I σ m c cd ph es)
    (hs : Sat σ c) (hi : InvM I m cd ph) : ∀ pre e post, es = pre ++ e :: post → ∀ a, Must I a (I.evPart e) →
      a ∈ cd ∨ Done I σ a pre := by
  have blk : ∀ {c : Cond} {cd : List Part} {y : Part} {es : List Ev}, Sat σ c → I.Has y → (∀ a, Must I a y → a ∈ cd) →
      (∀ pre e post, es = pre ++ e :: post → ∀ a, Must I a (I.evPart e) → a ∈ y :: cd ∨ Done I σ a pre) →
      ∀ pre e post, evsOf I c y ++ es = pre ++ e :: post → ∀ a, Must I a (I.evPart e) → a ∈ cd ∨ Done I σ a pre := by
    intro c cd y es hs hy hd ih pre e post heq a ha
    rcases List.append_eq_append_iff.1 heq with ⟨l, h1, h2⟩ | ⟨l, h1, h2⟩
    · rcases ih l e post h2 a ha with h | h
      · rcases List.mem_cons.1 h with rfl | h
        · right
          rw [h1]
          exact (done_evsOf hw hs hy).mono (fun e he => List.mem_append_left _ he)
        · exact .inl h
      · right
        rw [h1]
        exact h.mono (fun e he => List.mem_append_right _ he)
    · cases l with
      | nil =>
        simp only [List.append_nil] at h1
        rcases ih [] e post h2.symm a ha with h | h
        · rcases List.mem_cons.1 h with rfl | h
          · right
            rw [← h1]
            exact done_evsOf hw hs hy
          · exact .inl h
        · exact .inr (h.mono (by simp))
      | cons b l =>
        simp only [List.cons_append, List.cons.injEq] at h2
        left
        have : e ∈ evsOf I c y := by rw [h1, h2.1]; simp
        rw [evPart_of hw hy this] at ha
        exact hd a ha
  refine run_ind hw ho hent (P := fun m c cd ph es => ∀ pre e post, es = pre ++ e :: post → ∀ a, Must I a (I.evPart e) →
      a ∈ cd ∨ Done I σ a pre) ?_ ?_ ?_ ?_ ?_ hrun hs hi
  · intro c cd ph _ _ _ pre e post h
    simp at h
  · intro c cd ph es hs hi hm hd hi' ih
    exact blk hs ⟨hi.1.pos, hm⟩ hd ih
  · intro x y c cd ph es hs hi hsm hav hnr hnl hd _ ih
    exact blk hs hav.1 hd ih
  · intro x c cd ph es hs hi hsm hav hll hd _ ih
    exact blk hs hav.1 hd ih
  · intro x y c cd ph es hs hi ih
    exact ih

theorem run_complete {σ : Nat → Bool} {m : Mode} {c : Cond} {cd : List Part} {ph : Nat} {es : List Ev} (hrun : Run I σ m c cd ph es)
    (hs : Sat σ c) (hi : InvM I m cd ph) : ∀ a, I.Has a → Early I a (I.parent.maxPhase + 1) → a ∈ cd ∨ Done I σ a es := by
  have blk : ∀ {c : Cond} {cd : List Part} {y : Part} {es : List Ev}, Sat σ c → I.Has y →
      (∀ a, I.Has a → Early I a (I.parent.maxPhase + 1) → a ∈ y :: cd ∨ Done I σ a es) →
      ∀ a, I.Has a → Early I a (I.parent.maxPhase + 1) → a ∈ cd ∨ Done I σ a (evsOf I c y ++ es) := by
    intro c cd y es hs hy ih a ha he
    rcases ih a ha he with h | h
    · rcases List.mem_cons.1 h with rfl | h
      · exact .inr ((done_evsOf hw hs hy).mono fun e he => List.mem_append_left _ he)
      · exact .inl h
    · exact .inr (h.mono fun e he => List.mem_append_right _ he)
  refine run_ind hw ho hent (P := fun m c cd ph es => ∀ a, I.Has a → Early I a (I.parent.maxPhase + 1) →
      a ∈ cd ∨ Done I σ a es) ?_ ?_ ?_ ?_ ?_ hrun hs hi
  · intro c cd ph _ h hm a ha he
    obtain ⟨q, hq1, hq2, h'⟩ := he
    left
    rcases h' with rfl | rfl | h' | ⟨h1, h2, h3, h4⟩ | ⟨h1, h2, h3⟩
    · exact h.left q hq1 (by omega)
    · exact h.right q hq1 (by omega)
    · exact h.down _ (h.right q hq1 (by omega)) a h'
    · exact h.cyc q hq1 (by omega) a (.inr ⟨h1, h2⟩) (not_prevented hw h4) h3
    · exact h.greedy q hq1 (by omega) h1 h2 a ha h3
  · intro c cd ph es hs hi hm hd hi' ih
    exact blk hs ⟨hi.1.pos, hm⟩ ih
  · intro x y c cd ph es hs hi hsm hav hnr hnl hd _ ih
    exact blk hs hav.1 ih
  · intro x c cd ph es hs hi hsm hav hll hd _ ih
    exact blk hs hav.1 ih
  · intro x y c cd ph es hs hi ih
    exact ih

theorem run_nodup {σ : Nat → Bool} {m : Mode} {c : Cond} {cd : List Part} {ph : Nat} {es : List Ev} (hrun : Run I σ m c cd ph es)
    (hs : Sat σ c) (hi : InvM I m cd ph) : es.Nodup ∧ ∀ e ∈ es, I.Has (I.evPart e) ∧ I.evPart e ∉ cd := by
  have blk : ∀ {c : Cond} {cd : List Part} {y : Part} {es : List Ev}, y ∉ cd → I.Has y →
      (es.Nodup ∧ ∀ e ∈ es, I.Has (I.evPart e) ∧ I.evPart e ∉ y :: cd) →
      (evsOf I c y ++ es).Nodup ∧ ∀ e ∈ evsOf I c y ++ es, I.Has (I.evPart e) ∧ I.evPart e ∉ cd := by
    intro c cd y es hn hy ih
    refine ⟨List.Nodup.append (evsOf_nodup hy) ih.1 ?_, ?_⟩
    · intro e he he'
      exact (ih.2 e he').2 (by rw [evPart_of hw hy he]; simp)
    · intro e he
      rcases List.mem_append.1 he with he | he
      · rw [evPart_of hw hy he]; exact ⟨hy, hn⟩
      · exact ⟨(ih.2 e he).1, fun h => (ih.2 e he).2 (List.mem_cons_of_mem _ h)⟩
  refine run_ind hw ho hent (P := fun m c cd ph es => es.Nodup ∧ ∀ e ∈ es, I.Has (I.evPart e) ∧ I.evPart e ∉ cd) ?_ ?_ ?_ ?_ ?_ hrun hs hi
  · intro c cd ph _ h hm
    simp
  · intro c cd ph es hs hi hm hd hi' ih
    exact blk hi.2 ⟨hi.1.pos, hm⟩ ih
  · intro x y c cd ph es hs hi hsm hav hnr hnl hd _ ih
    exact blk hav.2.1 hav.1 ih
  · intro x c cd ph es hs hi hsm hav hll hd _ ih
    exact blk hav.2.1 hav.1 ih
  · intro x y c cd ph es hs hi ih
    exact ih


theorem emit_block {σ : Nat → Bool} {c : Cond} (hs : Sat σ c) (g : Int × Int) :
    ∃ A : List Nat, emit I c (I.members fun h => h == g) = A.map .inst ∧ Block I σ g A := by
  refine ⟨(I.members fun h => h == g).filter fun i => !ignored c (I.cond i), rfl, ?_, ?_, ?_⟩
  · exact (List.pairwise_lt_range.filter _).filter _
  · intro i hi
    obtain ⟨h1, h2⟩ := List.mem_filter.1 hi
    rw [mem_members] at h1
    exact ⟨h1.1, by simpa using h1.2⟩
  · intro i hi hg hsi
    rw [List.mem_filter, mem_members]
    exact ⟨⟨hi, by simpa using hg⟩, by simp [not_ignored hs hsi]⟩

omit hw ho hent in
theorem finishes_append (a b : List Ev) : finishes (a ++ b) = finishes a ++ finishes b := by
  unfold finishes; exact List.filterMap_append

omit hw ho hent in
theorem finishes_emit (c : Cond) (l : List Nat) : finishes (emit I c l) = [] := by
  unfold finishes emit
  rw [List.filterMap_eq_nil_iff]
  intro e he
  obtain ⟨i, _, rfl⟩ := List.mem_map.1 he
  rfl

omit hw ho hent in
theorem finishes_evsOf (c : Cond) (y : Part) : finishes (evsOf I c y) = match y with | .right p => [p] | _ => [] := by
  cases y with
  | left p => exact finishes_emit _ _
  | right p => rw [evsOf, finishes_append, finishes_emit]; rfl
  | visit ch p => rw [evsOf, finishes_append, finishes_append, finishes_emit, finishes_emit]; rfl
  | loc i => exact finishes_emit _ _

theorem run_finishes {σ : Nat → Bool} {m : Mode} {c : Cond} {cd : List Part} {ph : Nat} {es : List Ev} (hrun : Run I σ m c cd ph es)
    (hs : Sat σ c) (hi : InvM I m cd ph) : finishes es = List.range' ph (I.parent.maxPhase + 1 - ph) := by
  refine run_ind hw ho hent (P := fun m c cd ph es => finishes es = List.range' ph (I.parent.maxPhase + 1 - ph)) ?_ ?_ ?_ ?_ ?_ hrun hs hi
  · intro c cd ph _ h hm
    rw [show I.parent.maxPhase + 1 - ph = 0 by omega]; rfl
  · intro c cd ph es hs hi hm hd hi' ih
    rw [finishes_append, finishes_evsOf, ih]; rfl
  · intro x y c cd ph es hs hi hsm hav hnr hnl hd _ ih
    rw [finishes_append, finishes_evsOf, ih]
    cases y with
    | right p => exact absurd rfl (hnr p)
    | _ => rfl
  · intro x c cd ph es hs hi hsm hav hll hd _ ih
    rw [finishes_append, finishes_evsOf, ih]
    have hm := hi.max
    rw [show I.parent.maxPhase + 1 - ph = (I.parent.maxPhase + 1 - (ph + 1)) + 1 by omega, List.range'_succ]
    rfl
  · intro x y c cd ph es hs hi ih
    exact ih

theorem run_visit {σ : Nat → Bool} {m : Mode} {c : Cond} {cd : List Part} {ph : Nat} {es : List Ev} (hrun : Run I σ m c cd ph es)
    (hs : Sat σ c) (hi : InvM I m cd ph) : ∀ ch p, Ev.visit ch p ∈ es → ∃ pre A B post,
      es = pre ++ (A.map .inst ++ .visit ch p :: (B.map .inst ++ post)) ∧ Block I σ (-(p : Int), (ch : Int)) A ∧
      Block I σ ((p : Int), (ch : Int)) B := by
  have blk : ∀ {c : Cond} {y : Part} {es : List Ev}, Sat σ c → I.Has y →
      (∀ ch p, Ev.visit ch p ∈ es → ∃ pre A B post, es = pre ++ (A.map .inst ++ .visit ch p :: (B.map .inst ++ post)) ∧
        Block I σ (-(p : Int), (ch : Int)) A ∧ Block I σ ((p : Int), (ch : Int)) B) →
      ∀ ch p, Ev.visit ch p ∈ evsOf I c y ++ es → ∃ pre A B post,
        evsOf I c y ++ es = pre ++ (A.map .inst ++ .visit ch p :: (B.map .inst ++ post)) ∧
        Block I σ (-(p : Int), (ch : Int)) A ∧ Block I σ ((p : Int), (ch : Int)) B := by
    intro c y es hs hy ih ch p he
    rcases List.mem_append.1 he with he | he
    · have := evPart_of hw hy he
      simp only [Input.evPart] at this
      subst this
      obtain ⟨A, hA, hA'⟩ := emit_block hw ho hent hs (-(p : Int), (ch : Int))
      obtain ⟨B, hB, hB'⟩ := emit_block hw ho hent hs ((p : Int), (ch : Int))
      refine ⟨[], A, B, es, ?_, hA', hB'⟩
      rw [evsOf, hA, hB]
      simp
    · obtain ⟨pre, A, B, post, h1, h2, h3⟩ := ih ch p he
      exact ⟨evsOf I c y ++ pre, A, B, post, by rw [h1]; simp, h2, h3⟩
  refine run_ind hw ho hent (P := fun m c cd ph es => ∀ ch p, Ev.visit ch p ∈ es → ∃ pre A B post,
      es = pre ++ (A.map .inst ++ .visit ch p :: (B.map .inst ++ post)) ∧ Block I σ (-(p : Int), (ch : Int)) A ∧
      Block I σ ((p : Int), (ch : Int)) B) ?_ ?_ ?_ ?_ ?_ hrun hs hi
  · intro c cd ph _ h hm ch p he
    simp at he
  · intro c cd ph es hs hi hm hd hi' ih
    exact blk hs ⟨hi.1.pos, hm⟩ ih
  · intro x y c cd ph es hs hi hsm hav hnr hnl hd _ ih
    exact blk hs hav.1 ih
  · intro x c cd ph es hs hi hsm hav hll hd _ ih
    exact blk hs hav.1 ih
  · intro x y c cd ph es hs hi ih
    exact ih

omit ho in
/-- a phase begins with the inherited attributes -/
theorem run_begins {σ : Nat → Bool} {c : Cond} {cd : List Part} {ph : Nat} {es : List Ev} (hrun : Run I σ .start c cd ph es)
    (hs : Sat σ c) (hp : 1 ≤ ph) (hn : .left ph ∉ cd) :
    ∃ B post, es = B.map .inst ++ post ∧ Block I σ (-(ph : Int), -1) B := by
  cases hrun with
  | finish h =>
    refine ⟨[], [], rfl, by simp, by simp, ?_⟩
    intro i hi hg _
    have := hw.has i hi
    rw [(part_left hp).2 hg] at this
    have := this.2
    omega
  | start h hr =>
    rw [if_neg hn]
    refine ⟨(I.members fun h => h == (-(ph : Int), -1)).filter fun i => !ignored c (I.cond i), _, rfl, ?_, ?_, ?_⟩
    · exact (List.pairwise_lt_range.filter _).filter _
    · intro i hi
      obtain ⟨h1, h2⟩ := List.mem_filter.1 hi
      rw [mem_members] at h1
      exact ⟨h1.1, by simpa using h1.2⟩
    · intro i hi hg hsi
      rw [List.mem_filter, mem_members]
      exact ⟨⟨hi, by simpa using hg⟩, by simp [not_ignored hs hsi]⟩

theorem run_finish {σ : Nat → Bool} {m : Mode} {c : Cond} {cd : List Part} {ph : Nat} {es : List Ev} (hrun : Run I σ m c cd ph es)
    (hs : Sat σ c) (hi : InvM I m cd ph) : ∀ p, Ev.finish p ∈ es → ∃ pre A B post,
      es = pre ++ (A.map .inst ++ .finish p :: (B.map .inst ++ post)) ∧ Block I σ ((p : Int), -1) A ∧
      Block I σ (-((p : Int) + 1), -1) B := by
  have blk : ∀ {c : Cond} {y : Part} {es : List Ev}, I.Has y → (∀ p, y ≠ .right p) →
      (∀ p, Ev.finish p ∈ es → ∃ pre A B post, es = pre ++ (A.map .inst ++ .finish p :: (B.map .inst ++ post)) ∧
        Block I σ ((p : Int), -1) A ∧ Block I σ (-((p : Int) + 1), -1) B) →
      ∀ p, Ev.finish p ∈ evsOf I c y ++ es → ∃ pre A B post,
        evsOf I c y ++ es = pre ++ (A.map .inst ++ .finish p :: (B.map .inst ++ post)) ∧
        Block I σ ((p : Int), -1) A ∧ Block I σ (-((p : Int) + 1), -1) B := by
    intro c y es hy hny ih p he
    rcases List.mem_append.1 he with he | he
    · exact absurd (evPart_of hw hy he).symm (hny p)
    · obtain ⟨pre, A, B, post, h1, h2, h3⟩ := ih p he
      exact ⟨evsOf I c y ++ pre, A, B, post, by rw [h1]; simp, h2, h3⟩
  refine run_ind hw ho hent (P := fun m c cd ph es => ∀ p, Ev.finish p ∈ es → ∃ pre A B post,
      es = pre ++ (A.map .inst ++ .finish p :: (B.map .inst ++ post)) ∧ Block I σ ((p : Int), -1) A ∧
      Block I σ (-((p : Int) + 1), -1) B) ?_ ?_ ?_ ?_ ?_ hrun hs hi
  · intro c cd ph _ h hm p he
    simp at he
  · intro c cd ph es hs hi hm hd hi' ih
    exact blk ⟨hi.1.pos, hm⟩ (by simp) ih
  · intro x y c cd ph es hs hi hsm hav hnr hnl hd _ ih
    exact blk hav.1 hnr ih
  · intro x c cd ph es hs hi hsm hav hll hd hrun ih p he
    rcases List.mem_append.1 he with he | he
    · have := evPart_of hw hav.1 he
      simp only [Input.evPart, Part.right.injEq] at this
      subst this
      obtain ⟨A, hA, hA'⟩ := emit_block hw ho hent hs ((p : Int), -1)
      have hnl : .left (p + 1) ∉ Part.right p :: cd := by simpa using hll
      obtain ⟨B, post, hB, hB'⟩ := run_begins hw hent hrun hs (by omega) hnl
      refine ⟨[], A, B, post, ?_, hA', by simpa using hB'⟩
      rw [evsOf, hA, hB]
      simp
    · obtain ⟨pre, A, B, post, h1, h2, h3⟩ := ih p he
      exact ⟨evsOf I c (.right ph) ++ pre, A, B, post, by rw [h1]; simp, h2, h3⟩
  · intro x y c cd ph es hs hi ih
    exact ih

/-- what the condition knows -/
def KnownC (I : Input) (c : Cond) (cd : List Part) : Prop :=
  ∀ j r, I.rule j = some r → .loc j ∈ cd → c.pos.getLsbD r = true ∨ c.neg.getLsbD r = true ∨ ignored c (I.cond j) = true

omit ho hent in
theorem upd_sub {σ : Nat → Bool} {c : Cond} (hs : Sat σ c) (y : Part) : c.sub (upd I σ c y) := by
  cases y with
  | loc i =>
    unfold upd
    simp only
    split
    · exact Cond.sub_refl c
    · cases hr : I.rule i with
      | none => exact Cond.sub_refl c
      | some r =>
        have hr32 := hw.rules i r hr
        have hm : ∀ k, (cmask r).getLsbD k = true ↔ k = r := fun k => by rw [cmask_bit hr32]; simp
        simp only
        split
        · intro k
          simp only [BitVec.getLsbD_or, Bool.or_eq_true]
          exact ⟨.inl, id⟩
        · rename_i hσ
          intro k
          simp only [andnot_getLsbD, BitVec.getLsbD_or, Bool.or_eq_true, Bool.and_eq_true, Bool.not_eq_true']
          refine ⟨fun h => ⟨.inl h, ?_⟩, .inl⟩
          by_contra hc
          have := (hm k).1 (by simpa using hc)
          subst this
          exact hσ ((hs k).1 h)
  | _ => exact Cond.sub_refl c

omit ho hent in
theorem upd_known {σ : Nat → Bool} {c : Cond} (hs : Sat σ c) {cd : List Part} (hk : KnownC I c cd) (y : Part) :
    KnownC I (upd I σ c y) (y :: cd) := by
  have hsub := upd_sub hw hs y
  have old : ∀ j r, I.rule j = some r → .loc j ∈ cd → (upd I σ c y).pos.getLsbD r = true ∨
      (upd I σ c y).neg.getLsbD r = true ∨ ignored (upd I σ c y) (I.cond j) = true := by
    intro j r hj hm
    rcases hk j r hj hm with h | h | h
    · exact .inl ((hsub r).1 h)
    · exact .inr (.inl ((hsub r).2 h))
    · refine .inr (.inr ?_)
      rw [ignored_iff] at h ⊢
      exact fun hok => h (both_ok_sub_left hsub hok)
  intro j r hj hm
  rcases List.mem_cons.1 hm with e | hm
  · subst e
    have hr32 := hw.rules j r hj
    unfold upd
    simp only
    by_cases hig : ignored c (I.cond j) = true
    · rw [if_pos hig]; exact .inr (.inr hig)
    · rw [if_neg hig, hj]
      simp only
      split
      · left
        simp only [BitVec.getLsbD_or, Bool.or_eq_true]
        exact .inr (by rw [cmask_bit hr32]; simp)
      · right; left
        simp only [BitVec.getLsbD_or, Bool.or_eq_true]
        exact .inr (by rw [cmask_bit hr32]; simp)
  · exact old j r hj hm

theorem run_guarded (hg : Guarded I) {σ : Nat → Bool} {m : Mode} {c : Cond} {cd : List Part} {ph : Nat} {es : List Ev}
    (hrun : Run I σ m c cd ph es)
    (hs : Sat σ c) (hi : InvM I m cd ph) (hk : KnownC I c cd) : ∀ i, Ev.inst i ∈ es → i < I.n ∧ Sat σ (I.cond i) := by
  have emi : ∀ {c : Cond} {y : Part} {i : Nat}, I.Has y → Ev.inst i ∈ evsOf I c y → i < I.n ∧ ignored c (I.cond i) = false := by
    intro c y i hy he
    have em : ∀ l : List Nat, (∀ j ∈ l, j < I.n) → Ev.inst i ∈ emit I c l → i < I.n ∧ ignored c (I.cond i) = false := by
      intro l hl he
      obtain ⟨j, h1, h2, h3⟩ := mem_emit.1 he
      cases h3
      exact ⟨hl i h1, h2⟩
    have mm : ∀ p, ∀ j ∈ I.members p, j < I.n := fun p j hj => (mem_members.1 hj).1
    cases y with
    | left p => exact em _ (mm _) he
    | right p =>
      rcases List.mem_append.1 he with he | he
      · exact em _ (mm _) he
      · simp at he
    | visit ch p =>
      rcases List.mem_append.1 he with he | he
      · rcases List.mem_append.1 he with he | he
        · exact em _ (mm _) he
        · simp at he
      · exact em _ (mm _) he
    | loc j => exact em [j] (by simpa using hy.1) he
  have blk : ∀ {c : Cond} {cd : List Part} {y : Part} {es : List Ev}, Sat σ c → I.Has y → KnownC I c cd →
      (∀ a, Must I a y → a ∈ cd) → (∀ i, Ev.inst i ∈ es → i < I.n ∧ Sat σ (I.cond i)) →
      ∀ i, Ev.inst i ∈ evsOf I c y ++ es → i < I.n ∧ Sat σ (I.cond i) := by
    intro c cd y es hs hy hk hd ih i he
    rcases List.mem_append.1 he with he | he
    · obtain ⟨hin, hig⟩ := emi hy he
      have hp : I.part i = y := evPart_of hw hy he
      refine ⟨hin, ?_⟩
      have hok : (both c (I.cond i)).ok := by
        by_contra h
        rw [ignored_iff.2 h] at hig; cases hig
      have hok' := Cond.ok_iff.1 hok
      have bits : ∀ k, ((I.cond i).pos.getLsbD k = true ∨ (I.cond i).neg.getLsbD k = true) →
          c.pos.getLsbD k = true ∨ c.neg.getLsbD k = true := by
        intro k hb
        obtain ⟨j, h1, h2, h3, h4⟩ := hg i hin k hb
        rw [hp] at h4
        rcases hk j k h2 (hd _ h4) with h | h | h
        · exact .inl h
        · exact .inr h
        · exact absurd (both_ok_sub h3 hok) (ignored_iff.1 h)
      intro k
      have h1 := hok' k
      simp only [both, BitVec.getLsbD_or, Bool.or_eq_true, not_and_or, not_or] at h1
      constructor
      · intro hpos
        rcases bits k (.inl hpos) with h | h
        · exact (hs k).1 h
        · rcases h1 with h1 | h1
          · exact absurd hpos h1.2
          · exact absurd h h1.1
      · intro hneg
        rcases bits k (.inr hneg) with h | h
        · rcases h1 with h1 | h1
          · exact absurd h h1.1
          · exact absurd hneg h1.2
        · exact (hs k).2 h
    · exact ih i he
  have kc : ∀ {c : Cond} {cd : List Part} {y : Part}, KnownC I c cd → (∀ j, y ≠ .loc j) → KnownC I c (y :: cd) := by
    intro c cd y hk hy j r hj hm
    rcases List.mem_cons.1 hm with e | hm
    · exact absurd e.symm (hy j)
    · exact hk j r hj hm
  revert hk
  refine run_ind hw ho hent (P := fun m c cd ph es => KnownC I c cd → ∀ i, Ev.inst i ∈ es → i < I.n ∧ Sat σ (I.cond i)) ?_ ?_ ?_ ?_ ?_ hrun hs hi
  · intro c cd ph _ h hm _ i he
    simp at he
  · intro c cd ph es hs hi hm hd hi' ih hk
    exact blk hs ⟨hi.1.pos, hm⟩ hk hd (ih (kc hk (by simp)))
  · intro x y c cd ph es hs hi hsm hav hnr hnl hd _ ih hk
    exact blk hs hav.1 hk hd (ih (upd_known hw hs hk y))
  · intro x c cd ph es hs hi hsm hav hll hd _ ih hk
    exact blk hs hav.1 hk hd (ih (kc hk (by simp)))
  · intro x y c cd ph es hs hi ih
    exact ih

end

end Aps.Chunk
