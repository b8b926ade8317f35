import Verif.Proofs.Bind
set_option linter.unusedVariables false
/-! Name binding: a visit of every kind of node. -/
namespace Aps.Bind

theorem or_none {a b : Option Nat} (h : (a <|> b) = none) : a = none ∧ b = none := by
  cases a
  · exact ⟨rfl, by simpa using h⟩
  · simp at h

theorem nodup_app {a b : List Nat} : (a ++ b).Nodup ↔ a.Nodup ∧ b.Nodup ∧ List.Disjoint a b := by
  rw [List.nodup_append]
  constructor
  · rintro ⟨h1, h2, h3⟩; exact ⟨h1, h2, fun x hx hy => h3 x hx x hy rfl⟩
  · rintro ⟨h1, h2, h3⟩; exact ⟨h1, h2, fun x hx y hy e => h3 hx (e ▸ hy)⟩

theorem resNil (nm ns : Nat) : res [[]] nm ns = none := rfl

theorem visit_qual {C : Services} {sc : List Item} {ch : Chain} (r : Rep sc ch) (u ns nm fu fnm : Nat) (hne : u ≠ fu) (st : St) :
    Visit C [u, fu] [⟨u, ns, nm, some fnm, ch⟩, ⟨fu, nameType, fnm, none, ch⟩] [⟨u, ns, nm, some fnm, ch⟩, ⟨fu, nameType, fnm, none, ch⟩]
      st (bindN C sc (.qual u ns nm fu fnm) st) := by
  -- what each use is bound to in the end
  obtain ⟨st', hst'⟩ : ∃ st', st' = bindN C sc (.qual u ns nm fu fnm) st := ⟨_, rfl⟩
  rw [← hst']
  simp only [bindN] at hst'
  obtain ⟨s1, h1⟩ : ∃ s1, s1 = bindName fu nameType fnm (infos sc) st := ⟨_, rfl⟩
  rw [← h1] at hst'
  obtain ⟨s2, h2⟩ : ∃ s2, s2 = (if nm = C.result then { s1 with errs := s1.errs ++ [.privateResult u] } else s1) := ⟨_, rfl⟩
  rw [← h2] at hst'
  obtain ⟨f, hf⟩ : ∃ f : Frame, f = C.svcOf (s2.decl fu) := ⟨_, rfl⟩
  rw [← hf] at hst'
  obtain ⟨s3, h3⟩ : ∃ s3, s3 = bindName u ns nm f.reverse s2 := ⟨_, rfl⟩
  rw [← h3] at hst'
  obtain ⟨s4, h4⟩ : ∃ s4, s4 = check u s3 := ⟨_, rfl⟩
  rw [← h4] at hst'
  have d1 : ∀ v, s1.decl v = if v = fu then (res ch fnm nameType <|> st.decl fu) else st.decl v := fun v => by
    rw [h1, bindName_decl r]
  have d2 : ∀ v, s2.decl v = s1.decl v := fun v => by rw [h2]; split <;> rfl
  have e2 : ∀ v, Err.unbound v ∈ s2.errs ↔ Err.unbound v ∈ st.errs := fun v => by
    rw [h2]
    have : s1.errs = st.errs := by rw [h1, bindName_errs]
    split <;> simp [this]
  have d3 : ∀ v, s3.decl v = if v = u then (res [f] nm ns <|> s2.decl u) else s2.decl v := fun v => by rw [h3, bindName_svc]
  have e3 : s3.errs = s2.errs := by rw [h3, bindName_errs]
  have d4 : ∀ v, s4.decl v = s3.decl v := fun v => by rw [h4, check_decl]
  have e4 : ∀ v, Err.unbound v ∈ s4.errs ↔ Err.unbound v ∈ st.errs ∨ (v = u ∧ s3.decl u = none) := fun v => by
    rw [h4, check_errs, e3, e2]
  have d5 : ∀ v, st'.decl v = if v = fu then (res ch fnm nameType <|> s4.decl fu) else s4.decl v := fun v => by
    rw [hst', check_decl, bindName_decl r]
  have e5 : ∀ v, Err.unbound v ∈ st'.errs ↔ Err.unbound v ∈ s4.errs ∨ (v = fu ∧ (res ch fnm nameType <|> s4.decl fu) = none) := fun v => by
    rw [hst', check_errs, bindName_errs, bindName_decl r, if_pos rfl]
  have hu : s3.decl u = (res [f] nm ns <|> st.decl u) := by rw [d3, if_pos rfl, d2, d1, if_neg hne]
  have hfu : s4.decl fu = (res ch fnm nameType <|> st.decl fu) := by rw [d4, d3, if_neg (fun h => hne h.symm), d2, d1, if_pos rfl]
  have ff : s2.decl fu = (res ch fnm nameType <|> st.decl fu) := by rw [d2, d1, if_pos rfl]
  have Du : st'.decl u = (res [f] nm ns <|> st.decl u) := by rw [d5, if_neg hne, d4, hu]
  have Dfu : st'.decl fu = (res ch fnm nameType <|> st.decl fu) := by
    rw [d5, if_pos rfl, hfu]; cases res ch fnm nameType <;> rfl
  have Dv : ∀ v, v ≠ u → v ≠ fu → st'.decl v = st.decl v := fun v a b => by
    rw [d5, if_neg b, d4, d3, if_neg a, d2, d1, if_neg b]
  have E : ∀ v, Err.unbound v ∈ st'.errs ↔ Err.unbound v ∈ st.errs ∨ (v = u ∧ st'.decl u = none) ∨ (v = fu ∧ st'.decl fu = none) := fun v => by
    rw [e5, e4, hu, hfu, Du, Dfu, or_assoc]
    constructor
    · rintro (h | h | ⟨h, h'⟩)
      · exact .inl h
      · exact .inr (.inl h)
      · exact .inr (.inr ⟨h, (or_none h').2⟩)
    · rintro (h | h | ⟨h, h'⟩)
      · exact .inl h
      · exact .inr (.inl h)
      · refine .inr (.inr ⟨h, ?_⟩)
        rw [h']; rw [(or_none h').1]; rfl
  clear d1 d2 d3 d4 d5 e2 e3 e4 e5 hst' h1 h2 h3 h4 hu hfu
  have mono : ∀ v, st.decl v ≠ none → st'.decl v ≠ none := fun v h => by
    by_cases a : v = u
    · subst a; rw [Du]; intro e; exact h (or_none e).2
    · by_cases b : v = fu
      · subst b; rw [Dfu]; intro e; exact h (or_none e).2
      · rw [Dv v a b]; exact h
  have means : ∀ d, UseAt.Means C ⟨u, ns, nm, some fnm, ch⟩ d ↔ ∃ t, res ch fnm nameType = some t ∧ res [C.svc t] nm ns = some d := by
    intro d; simp only [UseAt.Means, res_iff]
  have meansF : ∀ d, UseAt.Means C ⟨fu, nameType, fnm, none, ch⟩ d ↔ res ch fnm nameType = some d := by
    intro d; simp only [UseAt.Means, res_iff]
  have fsvc : ∀ t, res ch fnm nameType = some t → f = C.svc t := fun t h => by rw [hf, ff, h]; rfl
  refine
    { inF := by intro x hx; simp only [List.mem_cons, List.not_mem_nil, or_false] at hx; rcases hx with rfl | rfl <;> simp
      inE := by intro x hx; simp only [List.mem_cons, List.not_mem_nil, or_false] at hx; rcases hx with rfl | rfl <;> simp
      keep := fun v h => by simp only [List.mem_cons, List.not_mem_nil, or_false, not_or] at h; exact Dv v h.1 h.2
      mono := mono
      errs := fun v h => (E v).2 (.inl h)
      errs' := fun v h => by
        rcases (E v).1 h with h | ⟨rfl, h⟩ | ⟨rfl, h⟩
        · exact .inl h
        · exact .inr ⟨by simp, by by_contra hc; exact mono _ hc h⟩
        · exact .inr ⟨by simp, by by_contra hc; exact mono _ hc h⟩
      plain := fun x hx hq => by
        simp only [List.mem_cons, List.not_mem_nil, or_false] at hx
        rcases hx with rfl | rfl
        · cases hq
        · exact Dfu
      qual := fun x hx hq d hm => by
        simp only [List.mem_cons, List.not_mem_nil, or_false] at hx
        rcases hx with rfl | rfl
        · obtain ⟨t, a, b⟩ := (means d).1 hm
          show st'.decl u = _
          rw [Du, fsvc t a, b]; rfl
        · exact absurd rfl hq
      good := fun h0 x hx hm => by
        simp only [List.mem_cons, List.not_mem_nil, or_false] at hx
        rcases hx with rfl | rfl
        · obtain ⟨d, hm⟩ := hm
          obtain ⟨t, a, b⟩ := (means d).1 hm
          have : st'.decl u = some d := by rw [Du, fsvc t a, b]; rfl
          show st'.decl u ≠ none ∧ (_ → _)
          refine ⟨by rw [this]; simp, fun h => ?_⟩
          rcases (E u).1 h with h | ⟨_, h⟩ | ⟨h, _⟩
          · exact h
          · rw [this] at h; cases h
          · exact absurd h hne
        · obtain ⟨d, hm⟩ := hm
          have : st'.decl fu = some d := by rw [Dfu, (meansF d).1 hm]; rfl
          show st'.decl fu ≠ none ∧ (_ → _)
          refine ⟨by rw [this]; simp, fun h => ?_⟩
          rcases (E fu).1 h with h | ⟨h, _⟩ | ⟨_, h⟩
          · exact h
          · exact absurd h.symm hne
          · rw [this] at h; cases h
      bad := fun h0 x hx hm => by
        simp only [List.mem_cons, List.not_mem_nil, or_false] at hx
        have b1 := h0 u (by simp)
        have b2 := h0 fu (by simp)
        rcases hx with rfl | rfl
        · refine (E u).2 (.inr (.inl ⟨rfl, ?_⟩))
          rw [Du, b1]
          simp only [means] at hm
          cases ht : res ch fnm nameType with
          | none =>
            have : f = [] := by rw [hf, ff, ht, b2]; rfl
            rw [this]; rfl
          | some t =>
            rw [fsvc t ht]
            cases hd : res [C.svc t] nm ns with
            | none => rfl
            | some d => exact absurd ⟨d, t, ht, hd⟩ hm
        · refine (E fu).2 (.inr (.inr ⟨rfl, ?_⟩))
          rw [Dfu, b2]
          simp only [meansF] at hm
          cases ht : res ch fnm nameType with
          | none => rfl
          | some t => exact absurd ⟨t, ht⟩ hm }

/-! ### Nodes without scopes -/

mutual
theorem visit_flat {C : Services} {sc : List Item} {ch : Chain} (r : Rep sc ch) (full full' : Bool) : ∀ (n : Node), flat n → (ids n).Nodup → ∀ st,
    Visit C (ids n) (uses C full n ch) (uses C full' n ch) st (bindN C sc n st)
  | .use u ns nm, _, _, st => visit_use r u ns nm st
  | .qual u ns nm fu fnm, _, h, st => visit_qual r u ns nm fu fnm (by simp only [ids, List.nodup_cons, List.mem_singleton] at h; exact h.1) st
  | .other cs, hf, h, st => visit_flatL r full full' cs hf h st
  | .stmt cs, hf, h, st => visit_flatL r full full' cs hf h st
  | .decl _ cs, hf, h, st => visit_flatL r full full' cs hf h st
  | .block _, hf, _, _ => hf.elim
  | .mtch _ _, hf, _, _ => hf.elim
  | .cls _ _ _ _, hf, _, _ => hf.elim
  | .modul _ _ _ _ _ _ _ _ _, hf, _, _ => hf.elim
  | .func _ _ _ _, hf, _, _ => hf.elim
  | .poly _ _ _, hf, _, _ => hf.elim
  | .forIn _ _ _, hf, _, _ => hf.elim
  | .ctrl _ _ _, hf, _, _ => hf.elim
theorem visit_flatL {C : Services} {sc : List Item} {ch : Chain} (r : Rep sc ch) (full full' : Bool) : ∀ (ns : List Node), flatL ns → (idsL ns).Nodup → ∀ st,
    Visit C (idsL ns) (usesL C full ns ch) (usesL C full' ns ch) st (bindNs C sc ns st)
  | [], _, _, st => Visit.nil C st
  | n :: ns, hf, h, st => by
    simp only [idsL, nodup_app] at h
    exact (visit_flat r full full' n hf.1 h.1 st).comp (visit_flatL r full full' ns hf.2 h.2.1 _) h.2.2
end

mutual
/-- The uses of a flat node, in another chain. -/
theorem uses_flat {C : Services} {full full' : Bool} {ch ch' : Chain} (hs : ∀ nm ns, res ch' nm ns = none → res ch nm ns = none) : ∀ (n : Node), flat n →
    ∀ x ∈ uses C full' n ch', x.qualifier = none → res x.chain x.nm x.ns = none →
      ∃ y ∈ uses C full n ch, y.u = x.u ∧ y.qualifier = none ∧ res y.chain y.nm y.ns = none
  | .use u ns nm, _, x, hx, hq, hr => by
    simp only [uses, List.mem_singleton] at hx
    subst hx
    exact ⟨⟨u, ns, nm, none, ch⟩, by simp [uses], rfl, rfl, hs _ _ hr⟩
  | .qual u ns nm fu fnm, _, x, hx, hq, hr => by
    simp only [uses, List.mem_cons, List.not_mem_nil, or_false] at hx
    rcases hx with rfl | rfl
    · cases hq
    · exact ⟨⟨fu, nameType, fnm, none, ch⟩, by simp [uses], rfl, rfl, hs _ _ hr⟩
  | .other cs, hf, x, hx, hq, hr => usesL_flat hs cs hf x hx hq hr
  | .stmt cs, hf, x, hx, hq, hr => usesL_flat hs cs hf x hx hq hr
  | .decl _ cs, hf, x, hx, hq, hr => usesL_flat hs cs hf x hx hq hr
  | .block _, hf, _, _, _, _ => hf.elim
  | .mtch _ _, hf, _, _, _, _ => hf.elim
  | .cls _ _ _ _, hf, _, _, _, _ => hf.elim
  | .modul _ _ _ _ _ _ _ _ _, hf, _, _, _, _ => hf.elim
  | .func _ _ _ _, hf, _, _, _, _ => hf.elim
  | .poly _ _ _, hf, _, _, _, _ => hf.elim
  | .forIn _ _ _, hf, _, _, _, _ => hf.elim
  | .ctrl _ _ _, hf, _, _, _, _ => hf.elim
theorem usesL_flat {C : Services} {full full' : Bool} {ch ch' : Chain} (hs : ∀ nm ns, res ch' nm ns = none → res ch nm ns = none) : ∀ (ns : List Node), flatL ns →
    ∀ x ∈ usesL C full' ns ch', x.qualifier = none → res x.chain x.nm x.ns = none →
      ∃ y ∈ usesL C full ns ch, y.u = x.u ∧ y.qualifier = none ∧ res y.chain y.nm y.ns = none
  | [], _, x, hx, _, _ => by simp [usesL] at hx
  | n :: ns, hf, x, hx, hq, hr => by
    simp only [usesL, List.mem_append] at hx
    rcases hx with hx | hx
    · obtain ⟨y, hy, r⟩ := uses_flat (full := full) hs n hf.1 x hx hq hr
      exact ⟨y, by simp only [usesL, List.mem_append]; exact .inl hy, r⟩
    · obtain ⟨y, hy, r⟩ := usesL_flat (full := full) hs ns hf.2 x hx hq hr
      exact ⟨y, by simp only [usesL, List.mem_append]; exact .inr hy, r⟩
end

theorem res_cons_none {f : Frame} {ch : Chain} (nm ns : Nat) (h : res (f :: ch) nm ns = none) : res ch nm ns = none := by
  rw [res_cons] at h
  cases hf : f.reverse.find? (answers nm ns) <;> rw [hf] at h
  · exact h
  · cases h

theorem extFrame_eq (C : Services) (ch : Chain) (nm : Nat) :
    extFrame C ch nm = C.extOf (res ch nm nameType) := by
  unfold extFrame
  by_cases h : ∃ d, Resolves ch nm nameType d
  · rw [dif_pos h]
    have := h.choose_spec
    rw [res_iff] at this
    rw [this]
    rfl
  · rw [dif_neg h]
    cases hr : res ch nm nameType with
    | none => rfl
    | some d => exact absurd ⟨d, (res_iff _ _ _ _).2 hr⟩ h

/-- Nothing bound yet. -/
def Fresh (ids : List Nat) (st : St) : Prop := ∀ u ∈ ids, st.decl u = none

theorem Fresh.left {a b : List Nat} {st : St} (h : Fresh (a ++ b) st) : Fresh a st := fun u hu => h u (List.mem_append_left _ hu)
theorem Fresh.right {a b : List Nat} {st : St} (h : Fresh (a ++ b) st) : Fresh b st := fun u hu => h u (List.mem_append_right _ hu)
theorem Fresh.same {a : List Nat} {st st' : St} (h : Fresh a st) (s : Same st st') : Fresh a st' := fun u hu => by rw [s.decl]; exact h u hu
theorem Fresh.after {C : Services} {a b : List Nat} {F E : List UseAt} {st st' : St} (h : Fresh b st) (v : Visit C a F E st st')
    (hd : List.Disjoint a b) : Fresh b st' := fun u hu => by
  rw [v.keep u fun h' => hd h' hu]; exact h u hu

mutual
theorem visit {C : Services} : ∀ (n : Node) {sc : List Item} {ch : Chain}, Rep sc ch → wf n → (ids n).Nodup → ∀ st, Fresh (ids n) st →
    Visit C (ids n) (uses C true n ch) (uses C false n ch) st (bindN C sc n st)
  | .use u ns nm, sc, ch, r, _, _, st, _ => visit_use r u ns nm st
  | .qual u ns nm fu fnm, sc, ch, r, _, h, st, _ =>
    visit_qual r u ns nm fu fnm (by simp only [ids, List.nodup_cons, List.mem_singleton] at h; exact h.1) st
  | .other cs, sc, ch, r, hw, h, st, h0 => visitL cs r hw h st h0
  | .stmt cs, sc, ch, r, hw, h, st, h0 => visitL cs r hw h st h0
  | .decl _ cs, sc, ch, r, hw, h, st, h0 => visitL cs r hw h st h0
  | .block ds, sc, ch, r, hw, h, st, h0 => by
    have a := getBs_adds 0 ds (sc, st)
    exact (visitL ds (r.push a) hw h _ (h0.same a.2)).pre a.2
  | .mtch pat rest, sc, ch, r, hw, h, st, h0 => by
    have a := getB_adds 0 pat (sc, st)
    simp only [ids, nodup_app] at h
    have v1 := visit (C := C) pat (r.push a) hw.1 h.1 _ (h0.left.same a.2)
    have v2 := visitL (C := C) rest (r.push a) hw.2 h.2.1 _ ((h0.right.same a.2).after v1 h.2.2)
    exact (v1.comp v2 h.2.2).pre a.2
  | .cls i fs ri rest, sc, ch, r, hw, h, st, h0 => by
    have a := getBs_adds 0 fs (sc, st)
    simp only [ids, nodup_app] at h
    have v1 := visit_flatL (C := C) (r.push a) true false fs hw.1 h.1 (getBs 0 fs (sc, st)).2
    have b := addItem_adds 0 ri ((getBs 0 fs (sc, st)).1, bindNs C (getBs 0 fs (sc, st)).1 fs (getBs 0 fs (sc, st)).2)
    have r1 := r.push a
    have r2 := (show Rep ((getBs 0 fs (sc, st)).1, bindNs C (getBs 0 fs (sc, st)).1 fs (getBs 0 fs (sc, st)).2).1 _ from r1).push b
    have v2 := visit_flatL (C := C) r2 true false fs hw.1 h.1
      (addItem 0 ri ((getBs 0 fs (sc, st)).1, bindNs C (getBs 0 fs (sc, st)).1 fs (getBs 0 fs (sc, st)).2)).2
    have v12 := v1.again (v2.pre b.2) (usesL_flat (fun _ _ h => res_cons_none _ _ h) fs hw.1)
    have v3 := visitL (C := C) rest r2 hw.2 h.2.1 _ ((h0.right.same a.2).after v12 h.2.2)
    exact (v12.comp v3 h.2.2).pre a.2
  | .func i fs rs rest, sc, ch, r, hw, h, st, h0 => by
    obtain ⟨wf1, wf2, wf3⟩ := hw
    simp only [ids, nodup_app] at h
    obtain ⟨n1, ⟨n2, n3, n23⟩, n123⟩ := h
    have n12 : List.Disjoint (idsL fs) (idsL rs) := fun x hx hy => n123 hx (List.mem_append_left _ hy)
    have n13 : List.Disjoint (idsL fs ++ idsL rs) (idsL rest) := fun x hx hy => by
      rcases List.mem_append.1 hx with hx | hx
      · exact n123 hx (List.mem_append_right _ hy)
      · exact n23 hx hy
    have a := getBs_adds 0 fs (sc, st)
    have r1 := r.push a
    have v1 := visit_flatL (C := C) r1 true false fs wf1 n1 (getBs 0 fs (sc, st)).2
    have b := getBs_adds 0 rs ((getBs 0 fs (sc, st)).1, bindNs C (getBs 0 fs (sc, st)).1 fs (getBs 0 fs (sc, st)).2)
    have r2 := (show Rep ((getBs 0 fs (sc, st)).1, bindNs C (getBs 0 fs (sc, st)).1 fs (getBs 0 fs (sc, st)).2).1 _ from r1).push b
    have v2 := visit_flatL (C := C) r2 true false rs wf2 n2 (getBs 0 rs ((getBs 0 fs (sc, st)).1, bindNs C (getBs 0 fs (sc, st)).1 fs (getBs 0 fs (sc, st)).2)).2
    have w1 := v1.comp (v2.pre b.2) n12
    have v3 := visit_flatL (C := C) r2 true false fs wf1 n1 (bindNs C (getBs 0 rs ((getBs 0 fs (sc, st)).1, bindNs C (getBs 0 fs (sc, st)).1 fs (getBs 0 fs (sc, st)).2)).1 rs
      (getBs 0 rs ((getBs 0 fs (sc, st)).1, bindNs C (getBs 0 fs (sc, st)).1 fs (getBs 0 fs (sc, st)).2)).2)
    have w2 := v3.comp (visit_flatL (C := C) r2 true false rs wf2 n2 _) n12
    have w := w1.again w2 (by
      intro x hx hq hr
      rcases List.mem_append.1 hx with hx | hx
      · obtain ⟨y, hy, e⟩ := usesL_flat (full := true) (fun _ _ h => res_cons_none _ _ h) fs wf1 x hx hq hr
        exact ⟨y, List.mem_append_left _ hy, e⟩
      · exact ⟨x, List.mem_append_right _ hx, rfl, hq, hr⟩)
    have f3 : Fresh (idsL rest) (getBs 0 fs (sc, st)).2 := (Fresh.right (Fresh.right h0)).same a.2
    have v5 := visitL (C := C) rest r2 wf3 n3 _ (f3.after w n13)
    have z := (w.comp v5 n13).pre a.2
    simp only [List.append_assoc] at z
    exact z
  | .poly i fs body, sc, ch, r, hw, h, st, h0 => by
    have a := getBs_adds 0 fs (sc, st)
    have r1 := r.push a
    simp only [ids, nodup_app] at h
    have v1 := visit_flatL (C := C) r1 true false fs hw.1 h.1 (getBs 0 fs (sc, st)).2
    have v2 := visit_flatL (C := C) r1 true false fs hw.1 h.1 (bindNs C (getBs 0 fs (sc, st)).1 fs (getBs 0 fs (sc, st)).2)
    have v12 := v1.again v2 (fun x hx hq hr => ⟨x, hx, rfl, hq, hr⟩)
    have b := getBs_adds 0 body ((getBs 0 fs (sc, st)).1, bindNs C (getBs 0 fs (sc, st)).1 fs (bindNs C (getBs 0 fs (sc, st)).1 fs (getBs 0 fs (sc, st)).2))
    have r2 := (show Rep ((getBs 0 fs (sc, st)).1, bindNs C (getBs 0 fs (sc, st)).1 fs (bindNs C (getBs 0 fs (sc, st)).1 fs (getBs 0 fs (sc, st)).2)).1 _ from r1).push b
    have v3 := (visitL (C := C) body r2 hw.2 h.2.1 _ (((h0.right.same a.2).after v12 h.2.2).same b.2)).pre b.2
    exact (v12.comp v3 h.2.2).pre a.2
  | .forIn formal seq body, sc, ch, r, hw, h, st, h0 => by
    simp only [ids, nodup_app] at h
    obtain ⟨n1, ⟨n2, n3, n23⟩, n123⟩ := h
    have v1 := visit (C := C) seq r hw.2.1 n1 st h0.left
    have a := getB_adds 0 formal (sc, bindN C sc seq st)
    have r1 := (show Rep (sc, bindN C sc seq st).1 _ from r).push a
    have f := (Fresh.right h0).after v1 n123
    have v2 := visit (C := C) formal r1 hw.1 n2 _ (f.left.same a.2)
    have v3 := visit (C := C) body r1 hw.2.2 n3 _ ((f.right.same a.2).after v2 n23)
    exact v1.comp ((v2.comp v3 n23).pre a.2) n123
  | .ctrl expr formal set, sc, ch, r, hw, h, st, h0 => by
    simp only [ids, nodup_app] at h
    obtain ⟨n1, ⟨n2, n3, n23⟩, n123⟩ := h
    have v1 := visit (C := C) set r hw.2.2 n1 st h0.left
    have a := getB_adds 0 formal (sc, bindN C sc set st)
    have r1 := (show Rep (sc, bindN C sc set st).1 _ from r).push a
    have f := (Fresh.right h0).after v1 n123
    have v2 := visit (C := C) formal r1 hw.2.1 n2 _ (f.left.same a.2)
    have v3 := visit (C := C) expr r1 hw.1 n3 _ ((f.right.same a.2).after v2 n23)
    exact v1.comp ((v2.comp v3 n23).pre a.2) n123
  | .modul i fs parent vfs ri rsig ext rtype contents, sc, ch, r, hw, h, st, h0 => by
    obtain ⟨w1, w2, w3, w4, w5, w6⟩ := hw
    simp only [ids] at h h0
    rw [nodup_app] at h
    obtain ⟨n1, h, d1⟩ := h
    rw [nodup_app] at h
    obtain ⟨n2, h, d2⟩ := h
    rw [nodup_app] at h
    obtain ⟨n3, h, d3⟩ := h
    rw [nodup_app] at h
    obtain ⟨n4, h, d4⟩ := h
    simp only [bindN]
    -- formals
    have a := getBs_adds 0 fs (sc, st)
    generalize getBs 0 fs (sc, st) = g1 at a ⊢
    have r1 := r.push a
    replace h0 := h0.same a.2
    refine Visit.pre a.2 ?_
    have v1 := visitL (C := C) fs r1 w1 n1 g1.2 h0.left
    replace h0 := h0.right.after v1 d1
    refine v1.comp ?_ d1
    -- parent
    generalize bindNs C g1.1 fs g1.2 = st at h0 ⊢
    have v2 := visitL (C := C) parent r1 w2 n2 st h0.left
    replace h0 := h0.right.after v2 d2
    refine v2.comp ?_ d2
    generalize bindNs C g1.1 parent st = st at h0 ⊢
    -- value formals
    have b := getBs_adds 0 vfs (g1.1, st)
    have r2 := (show Rep (g1.1, st).1 _ from r1).push b
    generalize getBs 0 vfs (g1.1, st) = g2 at b r2 ⊢
    replace h0 := h0.same b.2
    refine Visit.pre b.2 ?_
    have v3 := visitL (C := C) vfs r2 w3 n3 g2.2 h0.left
    replace h0 := h0.right.after v3 d3
    refine v3.comp ?_ d3
    generalize bindNs C g2.1 vfs g2.2 = st at h0 ⊢
    -- result
    have c := addItem_adds 0 ri (g2.1, st)
    have r3 := (show Rep (g2.1, st).1 _ from r2).push c
    generalize addItem 0 ri (g2.1, st) = g3 at c r3 ⊢
    replace h0 := h0.same c.2
    refine Visit.pre c.2 ?_
    have v4 := visitL (C := C) rsig r3 w4 n4 g3.2 h0.left
    replace h0 := h0.right.after v4 d4
    refine v4.comp ?_ d4
    generalize bindNs C g3.1 rsig g3.2 = st at h0 ⊢
    clear v1 v2 v3 v4
    cases ext with
    | none =>
      simp only at h h0 ⊢
      rw [nodup_app] at h
      have v5 := visitL (C := C) rtype r3 w5 h.1 st h0.left
      replace h0 := h0.right.after v5 h.2.2
      refine v5.comp ?_ h.2.2
      generalize bindNs C g3.1 rtype st = st at h0 ⊢
      have d := getBs_adds 0 contents (g3.1, st)
      have r4 := (show Rep (g3.1, st).1 _ from r3).push d
      exact (visitL contents r4 w6 h.2.1 _ (h0.same d.2)).pre d.2
    | some un =>
      obtain ⟨u, nm⟩ := un
      simp only at h h0 ⊢
      have h' := h
      rw [List.nodup_cons] at h
      have v5 := visit_use (C := C) r3 u nameType nm st
      have hu := v5.plain _ (List.mem_singleton.2 rfl) rfl
      rw [h0 u (by simp)] at hu
      simp only [Option.orElse_none] at hu
      have dj : List.Disjoint [u] (idsL contents) := fun x hx hy => by
        simp only [List.mem_singleton] at hx; subst hx; exact h.1 hy
      have h1 := (show Fresh (idsL contents) st from fun x hx => h0 x (by simp [hx])).after v5 dj
      refine v5.comp ?_ dj
      generalize check u (bindName u nameType nm (infos g3.1) st) = st at h1 hu ⊢
      have e : C.extOf (st.decl u) = extFrame C ([ri] :: declsL vfs :: declsL fs :: ch) nm := by
        rw [extFrame_eq, hu]
        cases res ([ri] :: declsL vfs :: declsL fs :: ch) nm nameType <;> rfl
      rw [e]
      have d := Adds.bump _ (addAll_adds st.next (extFrame C ([ri] :: declsL vfs :: declsL fs :: ch) nm) (g3.1, { st with next := st.next + 1 })) (s := (g3.1, st))
      have r4 := (show Rep (g3.1, st).1 _ from r3).push d
      generalize addAll st.next (extFrame C ([ri] :: declsL vfs :: declsL fs :: ch) nm) (g3.1, { st with next := st.next + 1 }) = g4 at d r4 ⊢
      have f := getBs_adds 0 contents g4
      have r5 := r4.push f
      exact ((visitL contents r5 w6 h.2 _ ((h1.same d.2).same f.2)).pre f.2).pre d.2
theorem visitL {C : Services} : ∀ (ns : List Node) {sc : List Item} {ch : Chain}, Rep sc ch → wfL ns → (idsL ns).Nodup → ∀ st, Fresh (idsL ns) st →
    Visit C (idsL ns) (usesL C true ns ch) (usesL C false ns ch) st (bindNs C sc ns st)
  | [], sc, ch, _, _, _, st, _ => Visit.nil C st
  | n :: ns, sc, ch, r, hw, h, st, h0 => by
    simp only [idsL, nodup_app] at h
    have v1 := visit (C := C) n r hw.1 h.1 st (Fresh.left h0)
    exact v1.comp (visitL ns r hw.2 h.2.1 _ ((Fresh.right h0).after v1 h.2.2)) h.2.2
end

/-- All units satisfy `wf`. -/
def wfU : List Unit → Prop
  | [] => True
  | .withU _ :: us => wfU us
  | .declU d :: us => wf d ∧ wfU us

theorem visitU {C : Services} : ∀ (us : List Unit) {sc : List Item} {ch : Chain}, Rep sc ch → wfU us → (unitIds us).Nodup → ∀ st, Fresh (unitIds us) st →
    Visit C (unitIds us) (unitUses C true us ch) (unitUses C false us ch) st (bindU C sc us st)
  | [], sc, ch, _, _, _, st, _ => Visit.nil C st
  | .withU _ :: us, sc, ch, r, hw, h, st, h0 => visitU us r hw h st h0
  | .declU d :: us, sc, ch, r, hw, h, st, h0 => by
    simp only [unitIds, nodup_app] at h
    have v1 := visit (C := C) d r hw.1 h.1 st (Fresh.left h0)
    exact v1.comp (visitU us r hw.2 h.2.1 _ ((Fresh.right h0).after v1 h.2.2)) h.2.2

end Aps.Bind
