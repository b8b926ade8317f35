import Verif.Proofs.Dep
import Mathlib.Data.List.Nodup
import Mathlib.Data.Set.Card
import Mathlib.Data.Set.Finite.Lattice
import Mathlib.Data.Set.Finite.Basic
import Mathlib.Data.Fintype.EquivFin
/-! `add_edge` -/
namespace Aps.Dnc

/-- some single edge already says that `k` holds under `c` -/
def Ent (es : List Edge) (c : Cond) (k : Dep) : Prop := ∃ e ∈ es, e.cond.sub c ∧ Le k e.kind

theorem Ent.mono {es : List Edge} {c c' : Cond} {k k' : Dep} (h : Ent es c k) (hc : c.sub c') (hk : Le k' k) :
    Ent es c' k' := by
  obtain ⟨e, he, h1, h2⟩ := h
  exact ⟨e, he, Cond.sub_trans h1 hc, hk.trans' h2⟩

/-- edges of the cell `src`, `snk` -/
def EdgeOk (src snk : Nat) (e : Edge) : Prop := e.src = src ∧ e.snk = snk ∧ e.cond.ok ∧ e.kind ≠ 0

structure AddPost (src snk : Nat) (k : Dep) (c : Cond) (es : List Edge) (w : Wl) (es' : List Edge) (w' : Wl) : Prop where
  kind : ∀ σ b, (kindAt σ es').getLsbD b = true ↔ (kindAt σ es).getLsbD b = true ∨ (Sat σ c ∧ k.getLsbD b = true)
  ent : Ent es' c k
  mono : ∀ c' k', Ent es c' k' → Ent es' c' k'
  ok : ∀ e ∈ es', EdgeOk src snk e
  nodup : (es'.map (·.id)).Nodup
  new : ∀ e ∈ es', e ∈ es ∨ (e.id = w.next ∧ e ∈ w'.list ∧ w'.next = w.next + 1 ∧ e.kind = k ∧ e.cond.sub c ∧
    ¬ Ent es e.cond e.kind)
  next : (w'.next = w.next ∧ w'.list.length ≤ w.list.length) ∨ (w'.next = w.next + 1 ∧ ∃ e ∈ es', e.id = w.next)
  keep : ∀ e ∈ w.list, e ∈ w'.list ∨ ∃ old ∈ es, old.id = e.id ∧ ∀ e' ∈ es', e'.id ≠ e.id
  wl : ∀ e ∈ w'.list, e ∈ w.list ∨ (e.id = w.next ∧ w'.next = w.next + 1 ∧ e ∈ es')
  gone : ∀ e ∈ w'.list, ∀ old ∈ es, old.id = e.id → ∃ e' ∈ es', e'.id = e.id

theorem mem_freeEdge {w : Wl} {old e : Edge} : e ∈ (freeEdge w old).list ↔ e ∈ w.list ∧ e.id ≠ old.id := by
  simp [freeEdge]

set_option maxHeartbeats 1000000 in
theorem addEdge_spec (src snk : Nat) (k : Dep) (hk : k ≠ 0) (es : List Edge) (w : Wl) (c : Cond) (hc : c.ok)
    (hok : ∀ e ∈ es, EdgeOk src snk e) (hid : ∀ e ∈ es, e.id < w.next) (hnd : (es.map (·.id)).Nodup)
    (hwl : ∀ e ∈ w.list, e.id < w.next) :
    ∃ es' w', addEdge src snk k c es w = .ok (es', w') ∧ AddPost src snk k c es w es' w' := by
  induction es generalizing c w with
  | nil =>
    refine ⟨_, _, by rw [addEdge, if_neg hk], ?_⟩
    constructor
    · intro σ b; rw [kindAt_bit, kindAt_bit]; simp
    · exact ⟨_, List.mem_singleton.2 rfl, Cond.sub_refl _, Le.refl _⟩
    · rintro c' k' ⟨e, he, _⟩; simp at he
    · intro e he; simp only [List.mem_singleton] at he; subst he; exact ⟨rfl, rfl, hc, hk⟩
    · simp
    · intro e he; simp only [List.mem_singleton] at he; subst he
      exact .inr ⟨rfl, by simp, rfl, rfl, Cond.sub_refl _, by rintro ⟨e, he, _⟩; simp at he⟩
    · right; exact ⟨rfl, _, List.mem_singleton.2 rfl, rfl⟩
    · intro e he; left; simp [he]
    · intro e he
      simp only [List.mem_append, List.mem_singleton] at he
      rcases he with he | rfl
      · exact .inl he
      · right; exact ⟨rfl, rfl, List.mem_singleton.2 rfl⟩
    · intro e _ old ho; simp at ho
  | cons cur rest ih =>
    have hcur := hok cur (by simp)
    have hrest : ∀ e ∈ rest, EdgeOk src snk e := fun e he => hok e (by simp [he])
    have hidr : ∀ e ∈ rest, e.id < w.next := fun e he => hid e (by simp [he])
    have hidc : cur.id < w.next := hid cur (by simp)
    rw [List.map_cons, List.nodup_cons] at hnd
    obtain ⟨hcnr, hndr⟩ := hnd
    have hcr : ∀ e ∈ rest, e.id ≠ cur.id := by
      intro e he h; exact hcnr (List.mem_map.2 ⟨e, he, h⟩)
    obtain ⟨s1, s2, s3, s4⟩ := condCompare_spec c cur.cond
    rw [addEdge, if_neg hk]
    simp only
    rw [if_neg (by rw [hcur.1, hcur.2.1]; simp)]
    by_cases b1 : atMost k cur.kind = true ∧ (condCompare c cur.cond = .lt ∨ condCompare c cur.cond = .eq)
    · rw [if_pos b1]
      refine ⟨_, _, rfl, ?_⟩
      have hsub : cur.cond.sub c := by
        rcases b1.2 with h | h
        · exact (s2.1 h).1
        · rw [s1.1 h]; exact Cond.sub_refl _
      have hle := atMost_iff.1 b1.1
      constructor
      · intro σ b
        constructor
        · exact .inl
        · rintro (h | ⟨h1, h2⟩)
          · exact h
          · rw [kindAt_bit]; exact ⟨cur, by simp, h1.mono hsub, hle _ h2⟩
      · exact ⟨cur, by simp, hsub, hle⟩
      · exact fun _ _ h => h
      · exact hok
      · rw [List.map_cons, List.nodup_cons]; exact ⟨hcnr, hndr⟩
      · exact fun e he => .inl he
      · exact .inl ⟨rfl, le_refl _⟩
      · exact fun e he => .inl he
      · exact fun e he => .inl he
      · exact fun e _ old ho h => ⟨old, ho, h⟩
    rw [if_neg b1]
    have hnent : ∀ c' : Cond, c'.sub c → ¬ (cur.cond.sub c' ∧ Le k cur.kind) := by
      rintro c' hc' ⟨h1, h2⟩
      apply b1
      refine ⟨atMost_iff.2 h2, ?_⟩
      have h3 := Cond.sub_trans h1 hc'
      by_cases he : c = cur.cond
      · exact .inr (s1.2 he)
      · exact .inl (s2.2 ⟨h3, he⟩)
    have entCons : ∀ {c' : Cond}, c'.sub c → ¬ Ent rest c' k → ¬ Ent (cur :: rest) c' k := by
      rintro c' hc' hn ⟨e, he, h1, h2⟩
      rcases List.mem_cons.1 he with rfl | he
      · exact hnent c' hc' ⟨h1, h2⟩
      · exact hn ⟨e, he, h1, h2⟩
    by_cases b2 : atMost cur.kind k = true ∧ (condCompare c cur.cond = .gt ∨ condCompare c cur.cond = .eq)
    · rw [if_pos b2]
      have hsub : c.sub cur.cond := by
        rcases b2.2 with h | h
        · exact (s3.1 h).1
        · rw [s1.1 h]; exact Cond.sub_refl _
      have hle := atMost_iff.1 b2.1
      obtain ⟨es', w', e1, p⟩ := ih (freeEdge w cur) c hc hrest hidr hndr
        (fun e he => hwl e (mem_freeEdge.1 he).1)
      refine ⟨es', w', e1, ?_⟩
      have hgone : ∀ e' ∈ es', e'.id ≠ cur.id := by
        intro e' he'
        rcases p.new e' he' with h | ⟨h, _⟩
        · exact hcr e' h
        · rw [h]; simp only [freeEdge]; omega
      constructor
      · intro σ b
        rw [p.kind σ b, kindAt, join_bit]
        by_cases hs : Sat σ cur.cond
        · have hsc := hs.mono hsub
          simp only [hs, if_true, hsc, true_and]
          constructor
          · rintro (h | h)
            · exact .inl (.inr h)
            · exact .inr h
          · rintro ((h | h) | h)
            · exact .inr (hle _ h)
            · exact .inl h
            · exact .inr h
        · simp [hs]
      · exact p.ent
      · rintro c' k' ⟨e, he, h1, h2⟩
        rcases List.mem_cons.1 he with rfl | he
        · exact p.ent.mono (Cond.sub_trans hsub h1) (h2.trans' hle)
        · exact p.mono c' k' ⟨e, he, h1, h2⟩
      · exact p.ok
      · exact p.nodup
      · intro e he
        rcases p.new e he with h | ⟨h1, h2, h3, h4, h5, h6⟩
        · exact .inl (by simp [h])
        · refine .inr ⟨h1, h2, h3, h4, h5, ?_⟩
          rw [h4] at h6 ⊢
          exact entCons h5 h6
      · rcases p.next with ⟨h1, h2⟩ | h
        · left
          refine ⟨h1, h2.trans ?_⟩
          simp only [freeEdge]
          exact List.length_filter_le _ _
        · exact .inr h
      · intro e he
        by_cases hec : e.id = cur.id
        · right
          exact ⟨cur, by simp, hec.symm, fun e' he' => by rw [hec]; exact hgone e' he'⟩
        · rcases p.keep e (mem_freeEdge.2 ⟨he, hec⟩) with h | ⟨old, h1, h2⟩
          · exact .inl h
          · exact .inr ⟨old, by simp [h1], h2⟩
      · intro e he
        rcases p.wl e he with h | h
        · exact .inl (mem_freeEdge.1 h).1
        · exact .inr h
      · intro e he old ho hoe
        rcases List.mem_cons.1 ho with rfl | ho
        · exfalso
          rcases p.wl e he with h | ⟨h, _⟩
          · exact (mem_freeEdge.1 h).2 hoe.symm
          · simp only [freeEdge] at h; omega
        · exact p.gone e he old ho hoe
    rw [if_neg b2]
    by_cases b3 : cur.kind = k ∧ condCompare c cur.cond = .comp
    · rw [if_pos b3]
      have hm : ∃ m, mergeCond c cur.cond = some m ∧ m.ok ∧ m.sub c ∧ m.sub cur.cond ∧
          ∀ σ, Sat σ m ↔ (Sat σ c ∨ Sat σ cur.cond) := by
        rcases s4.1 b3.2 with ⟨i, h⟩ | ⟨i, h⟩
        · obtain ⟨m, a1, a2, a3, a4, a5, a6⟩ := mergeCond_spec h hc
          exact ⟨m, a1, a3, a4, a5, a6⟩
        · obtain ⟨m, a1, a2, a3, a4, a5, a6⟩ := mergeCond_spec h hcur.2.2.1
          exact ⟨m, a2, a3, a5, a4, fun σ => by rw [a6 σ, or_comm]⟩
      obtain ⟨m, em, mok, msc, msu, msem⟩ := hm
      obtain ⟨es', w', e1, p⟩ := ih w m mok hrest hidr hndr hwl
      rw [em]
      simp only [e1, Res.ok_bind, Res.pure_eq]
      refine ⟨es', freeEdge w' cur, rfl, ?_⟩
      have hgone : ∀ e' ∈ es', e'.id ≠ cur.id := by
        intro e' he'
        rcases p.new e' he' with h | ⟨h, _⟩
        · exact hcr e' h
        · rw [h]; omega
      constructor
      · intro σ b
        rw [p.kind σ b, kindAt, join_bit, msem σ]
        by_cases hs : Sat σ cur.cond
        · simp only [hs, if_true, or_true, true_and, b3.1]
          constructor
          · rintro (h | h)
            · exact .inl (.inr h)
            · exact .inl (.inl h)
          · rintro ((h | h) | h)
            · exact .inr h
            · exact .inl h
            · exact .inr h.2
        · simp only [hs, if_false, or_false]; simp
      · exact p.ent.mono msc (Le.refl _)
      · rintro c' k' ⟨e, he, h1, h2⟩
        rcases List.mem_cons.1 he with rfl | he
        · exact p.ent.mono (Cond.sub_trans msu h1) (b3.1 ▸ h2)
        · exact p.mono c' k' ⟨e, he, h1, h2⟩
      · exact p.ok
      · exact p.nodup
      · intro e he
        rcases p.new e he with h | ⟨h1, h2, h3, h4, h5, h6⟩
        · exact .inl (by simp [h])
        · refine .inr ⟨h1, mem_freeEdge.2 ⟨h2, hgone e he⟩, h3, h4, Cond.sub_trans h5 msc, ?_⟩
          rw [h4] at h6 ⊢
          exact entCons (Cond.sub_trans h5 msc) h6
      · rcases p.next with ⟨h1, h2⟩ | h
        · left
          refine ⟨h1, le_trans ?_ h2⟩
          simp only [freeEdge]
          exact List.length_filter_le _ _
        · exact .inr h
      · intro e he
        by_cases hec : e.id = cur.id
        · right
          exact ⟨cur, by simp, hec.symm, fun e' he' => by rw [hec]; exact hgone e' he'⟩
        · rcases p.keep e he with h | ⟨old, h1, h2⟩
          · exact .inl (mem_freeEdge.2 ⟨h, hec⟩)
          · exact .inr ⟨old, by simp [h1], h2⟩
      · intro e he
        exact p.wl e (mem_freeEdge.1 he).1
      · intro e he old ho hoe
        rcases List.mem_cons.1 ho with rfl | ho
        · exact absurd hoe.symm (mem_freeEdge.1 he).2
        · exact p.gone e (mem_freeEdge.1 he).1 old ho hoe
    · rw [if_neg b3]
      obtain ⟨es', w', e1, p⟩ := ih w c hc hrest hidr hndr hwl
      simp only [e1, Res.ok_bind, Res.pure_eq]
      refine ⟨cur :: es', w', rfl, ?_⟩
      have hgone : ∀ e' ∈ es', e'.id ≠ cur.id := by
        intro e' he'
        rcases p.new e' he' with h | ⟨h, _⟩
        · exact hcr e' h
        · rw [h]; omega
      constructor
      · intro σ b
        rw [kindAt, kindAt, join_bit, join_bit, p.kind σ b, or_assoc]
      · obtain ⟨e, he, h⟩ := p.ent
        exact ⟨e, by simp [he], h⟩
      · rintro c' k' ⟨e, he, h1, h2⟩
        rcases List.mem_cons.1 he with rfl | he
        · exact ⟨e, by simp, h1, h2⟩
        · obtain ⟨e', he', h'⟩ := p.mono c' k' ⟨e, he, h1, h2⟩
          exact ⟨e', by simp [he'], h'⟩
      · intro e he
        rcases List.mem_cons.1 he with rfl | he
        · exact hcur
        · exact p.ok e he
      · rw [List.map_cons, List.nodup_cons]
        refine ⟨?_, p.nodup⟩
        rw [List.mem_map]
        rintro ⟨e', he', h⟩
        exact hgone e' he' h
      · intro e he
        rcases List.mem_cons.1 he with rfl | he
        · exact .inl (by simp)
        rcases p.new e he with h | ⟨h1, h2, h3, h4, h5, h6⟩
        · exact .inl (by simp [h])
        · refine .inr ⟨h1, h2, h3, h4, h5, ?_⟩
          rw [h4] at h6 ⊢
          exact entCons h5 h6
      · rcases p.next with h | ⟨h, e, he, h'⟩
        · exact .inl h
        · exact .inr ⟨h, e, by simp [he], h'⟩
      · intro e he
        rcases p.keep e he with h | ⟨old, h1, h2, h3⟩
        · exact .inl h
        · refine .inr ⟨old, by simp [h1], h2, ?_⟩
          intro e' he'
          rcases List.mem_cons.1 he' with rfl | he'
          · rw [← h2]; exact (hcr old h1).symm
          · exact h3 e' he'
      · intro e he
        rcases p.wl e he with h | ⟨h1, h2, h3⟩
        · exact .inl h
        · exact .inr ⟨h1, h2, by simp [h3]⟩
      · intro e he old ho hoe
        rcases List.mem_cons.1 ho with rfl | ho
        · exact ⟨old, by simp, hoe⟩
        · obtain ⟨e', h1, h2⟩ := p.gone e he old ho hoe
          exact ⟨e', by simp [h1], h2⟩

end Aps.Dnc
