import Verif.Spec.Dfa
import Mathlib.Tactic.Common
import Mathlib.Data.List.Nodup
set_option linter.unusedVariables false
namespace Aps.Dfa
open Aps.Dfa.Spec

/-! ### edges -/

def Rep (g : Graph) (E : List Edge) : Prop := ∀ s t l, (s, l) ∈ g t ↔ ⟨s, t, l⟩ ∈ E

theorem addEdge_ok {e : Edge} {g g' : Graph} (h : addEdge e g = .ok g') :
    ∀ s t l, (s, l) ∈ g' t ↔ (s, l) ∈ g t ∨ ⟨s, t, l⟩ = e := by
  unfold addEdge at h
  split at h
  · cases h
  split at h
  · cases h
  split at h
  · next hm =>
    cases h
    intro s t l
    constructor
    · exact .inl
    · rintro (h | rfl)
      · exact h
      · exact hm
  · cases h
    intro s t l
    obtain ⟨es, ed, el⟩ := e
    dsimp only
    split
    · next ht =>
      subst ht
      rw [List.mem_cons]
      constructor
      · rintro (h | h)
        · cases h; exact .inr rfl
        · exact .inl h
      · rintro (h | h)
        · exact .inr h
        · cases h; exact .inl rfl
    · next ht =>
      constructor
      · exact .inl
      · rintro (h | h)
        · exact h
        · cases h; exact absurd rfl ht

theorem addEdges_rep : ∀ {E : List Edge} {g g' : Graph}, addEdges E g = .ok g' →
    ∀ s t l, (s, l) ∈ g' t ↔ (s, l) ∈ g t ∨ ⟨s, t, l⟩ ∈ E
  | [], g, g', h, s, t, l => by cases h; simp
  | e :: E, g, g', h, s, t, l => by
    simp only [addEdges] at h
    obtain ⟨g1, h1, h2⟩ := Res.bind_eq_ok.1 h
    rw [addEdges_rep h2, addEdge_ok h1, List.mem_cons]
    tauto

theorem addEdges_total : ∀ {E : List Edge} (g : Graph), InRange E → ∃ g', addEdges E g = .ok g'
  | [], g, h => ⟨g, rfl⟩
  | e :: E, g, h => by
    obtain ⟨h1, h2, h4, h3⟩ := h e (List.mem_cons_self ..)
    have : ∃ g1, addEdge e g = .ok g1 := by
      unfold addEdge maxFsa
      rw [if_neg (by omega), if_neg (by omega)]
      split <;> exact ⟨_, rfl⟩
    obtain ⟨g1, hg1⟩ := this
    simp only [addEdges, hg1, Res.ok_bind]
    exact addEdges_total g1 (fun e he => h e (List.mem_cons_of_mem _ he))

/-! ### closing -/

theorem addNode_mem (ns : List Nat) (n x : Nat) : x ∈ addNode ns n ↔ x ∈ ns ∨ x = n := by
  unfold addNode
  split
  · next h =>
    constructor
    · exact .inl
    · rintro (h' | rfl)
      · exact h'
      · exact List.mem_of_mem_head? (by rw [h]; rfl)
  · rw [List.mem_cons]; tauto

theorem addNode_new {ns : List Nat} {n : Nat} (h : n ∉ ns) : addNode ns n = n :: ns := by
  unfold addNode
  rw [if_neg]
  intro h'
  exact h (List.mem_of_mem_head? (by rw [h']; rfl))

theorem closeEdges_spec : ∀ (es : List (Nat × Option Lab)) (head : List Nat),
    ∃ pre, closeEdges es head = pre ++ head ∧ (∀ x, x ∈ pre ++ head ↔ x ∈ head ∨ (x, none) ∈ es) ∧
      (head.Nodup → (pre ++ head).Nodup) ∧ ∀ x ∈ pre, x ∉ head
  | [], head => ⟨[], rfl, by simp, by simp, by simp⟩
  | (s, some l) :: es, head => by
    obtain ⟨pre, h1, h2, h3, h4⟩ := closeEdges_spec es head
    refine ⟨pre, by simpa only [closeEdges] using h1, fun x => ?_, h3, h4⟩
    rw [h2]; simp
  | (s, none) :: es, head => by
    by_cases hs : s ∈ head
    · obtain ⟨pre, h1, h2, h3, h4⟩ := closeEdges_spec es head
      refine ⟨pre, by simpa only [closeEdges, if_pos hs] using h1, fun x => ?_, h3, h4⟩
      rw [h2, List.mem_cons]
      constructor
      · tauto
      · rintro (h | h | h)
        · exact .inl h
        · cases h; exact .inl hs
        · exact .inr h
    · obtain ⟨pre, h1, h2, h3, h4⟩ := closeEdges_spec es (s :: head)
      refine ⟨pre ++ [s], by simpa only [closeEdges, if_neg hs, addNode_new hs, List.append_assoc, List.singleton_append] using h1,
        fun x => ?_, fun hn => ?_, fun x hx => ?_⟩
      · rw [List.append_assoc, List.singleton_append, h2, List.mem_cons, List.mem_cons, Prod.mk.injEq]
        tauto
      · rw [List.append_assoc, List.singleton_append]
        exact h3 (List.nodup_cons.2 ⟨hs, hn⟩)
      · rcases List.mem_append.1 hx with hx | hx
        · exact fun h => h4 x hx (List.mem_cons_of_mem _ h)
        · rw [List.mem_singleton] at hx; subst hx; exact hs

theorem closeSeg_spec (g : Graph) : ∀ (seg head : List Nat),
    ∃ pre, closeSeg g seg head = pre ++ head ∧ (∀ x, x ∈ pre ++ head ↔ x ∈ head ∨ ∃ p ∈ seg, (x, none) ∈ g p) ∧
      (head.Nodup → (pre ++ head).Nodup) ∧ ∀ x ∈ pre, x ∉ head
  | [], head => ⟨[], rfl, by simp, by simp, by simp⟩
  | p :: ps, head => by
    obtain ⟨pre, h1, h2, h3, h4⟩ := closeEdges_spec (g p) head
    obtain ⟨pre', k1, k2, k3, k4⟩ := closeSeg_spec g ps (pre ++ head)
    refine ⟨pre' ++ pre, by simp only [closeSeg, h1, k1, List.append_assoc], fun x => ?_, fun hn => ?_, fun x hx => ?_⟩
    · rw [List.append_assoc, k2, h2]
      simp only [List.mem_cons, exists_eq_or_imp]
      tauto
    · rw [List.append_assoc]
      exact k3 (h3 hn)
    · rcases List.mem_append.1 hx with hx | hx
      · exact fun h => k4 x hx (List.mem_append.2 (.inr h))
      · exact h4 x hx

theorem closeLoop_spec (g : Graph) : ∀ (n : Nat) (seg head r : List Nat), closeLoop g n seg head = .ok r →
    (∀ p ∈ head, p ∉ seg → ∀ x, (x, none) ∈ g p → x ∈ head) → (∀ p ∈ head, p ∈ r) ∧
      (∀ p ∈ r, ∀ x, (x, none) ∈ g p → x ∈ r) ∧ (head.Nodup → r.Nodup) ∧
      ∀ C : Nat → Prop, (∀ p ∈ head, C p) → (∀ p ∈ seg, C p) → (∀ p x, C p → (x, none) ∈ g p → C x) → ∀ q ∈ r, C q
  | 0, seg, head, r, h, _ => by cases h
  | n + 1, seg, head, r, h, hc => by
    simp only [closeLoop] at h
    obtain ⟨pre, h1, h2, h3, h4⟩ := closeSeg_spec g seg head
    rw [h1] at h
    by_cases hl : (pre ++ head).length = head.length
    · rw [if_pos hl] at h
      have hp : pre = [] := by
        rw [List.length_append] at hl
        exact List.length_eq_zero_iff.1 (by omega)
      subst hp
      simp only [List.nil_append] at h h2
      cases h
      refine ⟨fun p h => h, fun p hp x hx => ?_, fun hn => hn, fun C h _ _ => h⟩
      by_cases hs : p ∈ seg
      · exact (h2 x).2 (.inr ⟨p, hs, hx⟩)
      · exact hc p hp hs x hx
    · rw [if_neg hl] at h
      have ht : (pre ++ head).take ((pre ++ head).length - head.length) = pre := by
        rw [List.length_append, Nat.add_sub_cancel, List.take_left']
        rfl
      rw [ht] at h
      obtain ⟨k1, k2, k3, k4⟩ := closeLoop_spec g n pre (pre ++ head) r h (fun p hp hs x hx => by
        rcases List.mem_append.1 hp with hp | hp
        · exact absurd hp hs
        · by_cases hs' : p ∈ seg
          · exact (h2 x).2 (.inr ⟨p, hs', hx⟩)
          · exact List.mem_append.2 (.inr (hc p hp hs' x hx)))
      refine ⟨fun p hp => k1 p (List.mem_append.2 (.inr hp)), k2, fun hn => k3 (h3 hn), fun C c1 c2 c3 => ?_⟩
      have all : ∀ p ∈ pre ++ head, C p := by
        intro p hp
        rcases (h2 p).1 hp with h | ⟨p', hp', h⟩
        · exact c1 p h
        · exact c3 p' p (c2 p' hp') h
      exact k4 C all (fun p hp => all p (List.mem_append.2 (.inl hp))) c3

theorem beclose_spec {g : Graph} {n : Nat} {ns r : List Nat} (h : beclose g n ns = .ok r) :
    (∀ p ∈ ns, p ∈ r) ∧ (∀ p ∈ r, ∀ x, (x, none) ∈ g p → x ∈ r) ∧ (ns.Nodup → r.Nodup) ∧
      ∀ C : Nat → Prop, (∀ p ∈ ns, C p) → (∀ p x, C p → (x, none) ∈ g p → C x) → ∀ q ∈ r, C q := by
  obtain ⟨h1, h2, h3, h4⟩ := closeLoop_spec g n ns ns r h (fun p hp hn => absurd hp hn)
  exact ⟨h1, h2, h3, fun C c1 c2 => h4 C c1 c1 c2⟩

/-- the sources that are not in the set yet -/
def outside (E : List Edge) (head : List Nat) : Nat := ((E.map (·.src)).filter fun x => decide (x ∉ head)).length

theorem filter_lt {α : Type} {p q : α → Bool} : ∀ {l : List α}, (∀ x, q x = true → p x = true) →
    (∃ x ∈ l, p x = true ∧ q x = false) → (l.filter q).length < (l.filter p).length
  | [], _, ⟨_, h, _⟩ => nomatch h
  | a :: l, hs, ⟨x, hx, hp, hq⟩ => by
    have le : ∀ l : List α, (l.filter q).length ≤ (l.filter p).length := by
      intro l
      induction l with
      | nil => exact Nat.le_refl _
      | cons b l ih =>
        cases hb : q b
        · rw [List.filter_cons_of_neg (by simp [hb])]
          cases hb' : p b
          · rw [List.filter_cons_of_neg (by simp [hb'])]; exact ih
          · rw [List.filter_cons_of_pos hb', List.length_cons]; omega
        · rw [List.filter_cons_of_pos hb, List.filter_cons_of_pos (hs _ hb), List.length_cons, List.length_cons]; omega
    rcases List.mem_cons.1 hx with rfl | hx
    · rw [List.filter_cons_of_pos hp, List.filter_cons_of_neg (by simp [hq]), List.length_cons]
      have := le l
      omega
    · have ih := filter_lt (l := l) hs ⟨x, hx, hp, hq⟩
      cases hb : q a
      · rw [List.filter_cons_of_neg (by simp [hb])]
        cases hb' : p a
        · rw [List.filter_cons_of_neg (by simp [hb'])]; exact ih
        · rw [List.filter_cons_of_pos hb', List.length_cons]; omega
      · rw [List.filter_cons_of_pos hb, List.filter_cons_of_pos (hs _ hb), List.length_cons, List.length_cons]; omega

theorem closeLoop_total {g : Graph} {E : List Edge} (hg : Rep g E) : ∀ (n : Nat) (seg head : List Nat),
    outside E head < n → ∃ r, closeLoop g n seg head = .ok r
  | 0, seg, head, h => by omega
  | n + 1, seg, head, h => by
    simp only [closeLoop]
    obtain ⟨pre, h1, h2, h3, h4⟩ := closeSeg_spec g seg head
    rw [h1]
    by_cases hl : (pre ++ head).length = head.length
    · rw [if_pos hl]; exact ⟨_, rfl⟩
    · rw [if_neg hl]
      refine closeLoop_total hg n _ _ ?_
      have hne : pre ≠ [] := by rintro rfl; exact hl rfl
      obtain ⟨x, hx⟩ := List.exists_mem_of_ne_nil _ hne
      have hlt : outside E (pre ++ head) < outside E head := by
        refine filter_lt (fun y hy => ?_) ⟨x, ?_, ?_, ?_⟩
        · have := of_decide_eq_true hy
          exact decide_eq_true fun h => this (List.mem_append.2 (.inr h))
        · rcases (h2 x).1 (List.mem_append.2 (.inl hx)) with h | ⟨p, _, h⟩
          · exact absurd h (h4 x hx)
          · exact List.mem_map.2 ⟨_, (hg _ _ _).1 h, rfl⟩
        · exact decide_eq_true (h4 x hx)
        · exact decide_eq_false (not_not.2 (List.mem_append.2 (.inl hx)))
      omega

theorem beclose_total {g : Graph} {E : List Edge} (hg : Rep g E) {n : Nat} (h : E.length < n) (ns : List Nat) :
    ∃ r, beclose g n ns = .ok r := by
  refine closeLoop_total hg n ns ns (Nat.lt_of_le_of_lt ?_ h)
  have := List.length_filter_le (fun x => decide (x ∉ ns)) (E.map (·.src))
  rwa [List.length_map] at this

end Aps.Dfa
