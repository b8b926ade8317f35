import Verif.Spec.Bind
import Mathlib.Tactic.Common
set_option linter.unusedVariables false
/-! Name binding: the scope list, and what one visit of a node does. -/
namespace Aps.Bind

/-! ### The scope rule, computed -/

def flatC (ch : Chain) : List Info := ch.flatMap List.reverse

/-- What a name stands for in a chain. -/
def res (ch : Chain) (nm ns : Nat) : Option Nat := ((flatC ch).find? (answers nm ns)).map (·.id)

theorem res_cons (f : Frame) (ch : Chain) (nm ns : Nat) :
    res (f :: ch) nm ns = match f.reverse.find? (answers nm ns) with
      | some i => some i.id
      | none => res ch nm ns := by
  simp only [res, flatC, List.flatMap_cons, List.find?_append]
  cases f.reverse.find? (answers nm ns) <;> rfl

theorem find_last {p : Info → Bool} {f : Frame} {i : Info} (h : f.reverse.find? p = some i) :
    ∃ before after, f = before ++ i :: after ∧ p i = true ∧ ∀ k ∈ after, p k = false := by
  rw [List.find?_eq_some_iff_append] at h
  obtain ⟨hp, as, bs, e, h⟩ := h
  refine ⟨bs.reverse, as.reverse, ?_, hp, fun k hk => ?_⟩
  · have := congrArg List.reverse e
    simpa using this
  · have := h k (by simpa using hk)
    simpa using this

theorem find_last_mpr {p : Info → Bool} {before after : Frame} {i : Info} (hp : p i = true) (h : ∀ k ∈ after, p k = false) :
    (before ++ i :: after).reverse.find? p = some i := by
  rw [List.find?_eq_some_iff_append]
  refine ⟨hp, after.reverse, before.reverse, by simp, fun k hk => ?_⟩
  rw [h k (by simpa using hk)]; rfl

theorem res_iff : ∀ (ch : Chain) (nm ns d : Nat), Resolves ch nm ns d ↔ res ch nm ns = some d
  | [], nm, ns, d => by simp [Resolves, res, flatC]
  | f :: ch, nm, ns, d => by
    rw [res_cons]
    cases h : f.reverse.find? (answers nm ns) with
    | some i =>
      obtain ⟨b, a, rfl, hp, hk⟩ := find_last h
      constructor
      · rintro ⟨inner, g, outer, e, hi, b', i', a', rfl, hp', rfl, hk'⟩
        cases inner with
        | nil =>
          simp only [List.nil_append, List.cons.injEq] at e
          obtain ⟨e, -⟩ := e
          have := find_last_mpr (before := b') hp' hk'
          rw [← e, h] at this
          cases this; rfl
        | cons x inner =>
          simp only [List.cons_append, List.cons.injEq] at e
          obtain ⟨rfl, -⟩ := e
          have := hi (b ++ i :: a) (by simp) i (by simp)
          rw [hp] at this; cases this
      · intro e
        simp only [Option.some.injEq] at e
        exact ⟨[], _, ch, rfl, by simp, b, i, a, rfl, hp, e, hk⟩
    | none =>
      simp only [← res_iff ch]
      have hn : ∀ i ∈ f, answers nm ns i = false := by
        intro i hi
        rw [List.find?_eq_none] at h
        simpa using h i (by simpa using hi)
      constructor
      · rintro ⟨inner, g, outer, e, hi, b', i', a', rfl, hp', rfl, hk'⟩
        cases inner with
        | nil =>
          simp only [List.nil_append, List.cons.injEq] at e
          obtain ⟨rfl, -⟩ := e
          have := hn i' (by simp)
          rw [hp'] at this; cases this
        | cons x inner =>
          simp only [List.cons_append, List.cons.injEq] at e
          obtain ⟨rfl, rfl⟩ := e
          exact ⟨inner, _, outer, rfl, fun g hg => hi g (by simp [hg]), b', i', a', rfl, hp', rfl, hk'⟩
      · rintro ⟨inner, g, outer, rfl, hi, r⟩
        refine ⟨f :: inner, g, outer, rfl, fun g' hg => ?_, r⟩
        rcases List.mem_cons.1 hg with rfl | hg
        · exact hn
        · exact hi g' hg

/-- A scope list stands for a chain. -/
def Rep (sc : List Item) (ch : Chain) : Prop :=
  ∀ nm ns, ((infos sc).find? (answers nm ns)).map (·.id) = res ch nm ns

/-- Only errors about duplicates, and the counter, have changed. -/
structure Same (st st' : St) : Prop where
  decl : ∀ u, st'.decl u = st.decl u
  errs : ∀ u, Err.unbound u ∈ st'.errs ↔ Err.unbound u ∈ st.errs

theorem Same.refl (st : St) : Same st st := ⟨fun _ => rfl, fun _ => Iff.rfl⟩
theorem Same.trans {a b c : St} (h : Same a b) (h' : Same b c) : Same a c :=
  ⟨fun u => (h'.decl u).trans (h.decl u), fun u => (h'.errs u).trans (h.errs u)⟩

/-- The named declarations, last first. -/
def named (f : Frame) : List Info := (f.filter fun i => i.name.isSome).reverse

theorem named_append (f g : Frame) : named (f ++ g) = named g ++ named f := by simp [named]

/-- Adding declarations to the scope. -/
def Adds (f : Frame) (s s' : List Item × St) : Prop := infos s'.1 = named f ++ infos s.1 ∧ Same s.2 s'.2

theorem Adds.nil (s : List Item × St) : Adds [] s s := ⟨rfl, .refl _⟩
theorem Adds.trans {f g : Frame} {s s1 s2 : List Item × St} (h : Adds f s s1) (h' : Adds g s1 s2) : Adds (f ++ g) s s2 :=
  ⟨by rw [h'.1, h.1, named_append, List.append_assoc], h.2.trans h'.2⟩

theorem addItem_adds (cur : Nat) (i : Info) (s : List Item × St) : Adds [i] s (addItem cur i s) := by
  cases h : i.name with
  | none => simp only [addItem, h]; exact ⟨by simp [named, h], .refl _⟩
  | some nm =>
    simp only [addItem, h]
    refine ⟨by simp [named, h], fun _ => rfl, fun u => ?_⟩
    simp

theorem Adds.bump {f : Frame} {s s' : List Item × St} (k : Nat) (h : Adds f (s.1, { s.2 with next := k }) s') : Adds f s s' :=
  ⟨h.1, (show Same s.2 { s.2 with next := k } from ⟨fun _ => rfl, fun _ => Iff.rfl⟩).trans h.2⟩

mutual
theorem getB_adds : ∀ (cur : Nat) (n : Node) (s : List Item × St), Adds (decls n) s (getB cur n s)
  | _, .use _ _ _, s => .nil s
  | _, .qual _ _ _ _ _, s => .nil s
  | cur, .other cs, s => getBs_adds cur cs s
  | _, .stmt _, s => .nil s
  | cur, .block ds, s => getBs_adds cur ds s
  | cur, .mtch pat rest, s => (getB_adds cur pat s).trans (getBs_adds cur rest _)
  | cur, .decl i _, s => addItem_adds cur i s
  | cur, .cls i _ _ _, s => addItem_adds cur i s
  | cur, .modul i _ _ _ _ _ _ _ _, s => addItem_adds cur i s
  | cur, .func i _ _ _, s => addItem_adds cur i s
  | cur, .poly i _ body, s =>
    (addItem_adds cur i s).trans (Adds.bump _ (getBs_adds (addItem cur i s).2.next body _))
  | _, .forIn _ _ _, s => .nil s
  | cur, .ctrl expr formal set, s => ((getB_adds cur expr s).trans (getB_adds cur formal _)).trans (getB_adds cur set _)
theorem getBs_adds : ∀ (cur : Nat) (ns : List Node) (s : List Item × St), Adds (declsL ns) s (getBs cur ns s)
  | _, [], s => .nil s
  | cur, n :: ns, s => (getB_adds cur n s).trans (getBs_adds cur ns _)
end

theorem ite_adds {p : Bool} {cur : Nat} {i : Info} {s : List Item × St} :
    Adds (if p then [i] else []) s (if p then addItem cur i s else s) := by
  cases p
  · exact .nil s
  · exact addItem_adds cur i s

mutual
theorem pubB_adds : ∀ (cur : Nat) (n : Node) (s : List Item × St), Adds (pubs n) s (pubB cur n s)
  | _, .use _ _ _, s => .nil s
  | _, .qual _ _ _ _ _, s => .nil s
  | cur, .other cs, s => pubBs_adds cur cs s
  | cur, .stmt cs, s => pubBs_adds cur cs s
  | cur, .block ds, s => pubBs_adds cur ds s
  | cur, .mtch pat rest, s => (pubB_adds cur pat s).trans (pubBs_adds cur rest _)
  | cur, .decl i _, s => ite_adds
  | cur, .cls i _ _ _, s => ite_adds
  | cur, .modul i _ _ _ _ _ _ _ _, s => ite_adds
  | cur, .func i _ _ _, s => ite_adds
  | cur, .poly i _ body, s => by
    simp only [pubs, pubB]
    cases i.pub
    · exact .nil s
    · exact (addItem_adds cur i s).trans (Adds.bump _ (pubBs_adds (addItem cur i s).2.next body _))
  | cur, .forIn formal seq body, s => ((pubB_adds cur formal s).trans (pubB_adds cur seq _)).trans (pubB_adds cur body _)
  | cur, .ctrl expr formal set, s => ((pubB_adds cur expr s).trans (pubB_adds cur formal _)).trans (pubB_adds cur set _)
theorem pubBs_adds : ∀ (cur : Nat) (ns : List Node) (s : List Item × St), Adds (pubsL ns) s (pubBs cur ns s)
  | _, [], s => .nil s
  | cur, n :: ns, s => (pubB_adds cur n s).trans (pubBs_adds cur ns _)
end

theorem addAll_adds (cur : Nat) : ∀ (f : Frame) (s : List Item × St), Adds f s (addAll cur f s)
  | [], s => .nil s
  | i :: f, s => (addItem_adds cur i s).trans (addAll_adds cur f _)

theorem getU_adds : ∀ (us : List Unit) (s : List Item × St), Adds (unitFrame us) s (getU us s)
  | [], s => .nil s
  | .withU p :: us, s => (pubBs_adds 0 p s).trans (getU_adds us _)
  | .declU d :: us, s => (getB_adds 0 d s).trans (getU_adds us _)

theorem find_named (f : Frame) (nm ns : Nat) : (named f).find? (answers nm ns) = f.reverse.find? (answers nm ns) := by
  simp only [named, ← List.filter_reverse, List.find?_filter]
  congr 1
  funext i
  cases h : i.name with
  | none => simp [answers, h]
  | some v =>
    by_cases h1 : v = nm <;> by_cases h2 : namespaces i.kind &&& ns = 0 <;> simp [answers, h, h1, h2]

theorem Rep.push {f : Frame} {s s' : List Item × St} {ch : Chain} (h : Rep s.1 ch) (ha : Adds f s s') : Rep s'.1 (f :: ch) := by
  intro nm ns
  rw [ha.1, List.find?_append, find_named, res_cons, ← h nm ns]
  cases f.reverse.find? (answers nm ns) <;> rfl

/-! ### Visits -/

/-- One visit of a node with the uses `ids`. -/
structure Visit (C : Services) (ids : List Nat) (F E : List UseAt) (st st' : St) : Prop where
  inF : ∀ x ∈ F, x.u ∈ ids
  inE : ∀ x ∈ E, x.u ∈ ids
  keep : ∀ u, u ∉ ids → st'.decl u = st.decl u
  mono : ∀ u, st.decl u ≠ none → st'.decl u ≠ none
  errs : ∀ u, Err.unbound u ∈ st.errs → Err.unbound u ∈ st'.errs
  errs' : ∀ u, Err.unbound u ∈ st'.errs → Err.unbound u ∈ st.errs ∨ (u ∈ ids ∧ st.decl u = none)
  plain : ∀ x ∈ F, x.qualifier = none → st'.decl x.u = (res x.chain x.nm x.ns <|> st.decl x.u)
  qual : ∀ x ∈ F, x.qualifier ≠ none → ∀ d, x.Means C d → st'.decl x.u = some d
  good : (∀ u ∈ ids, st.decl u = none) → ∀ x ∈ E, (∃ d, x.Means C d) →
    st'.decl x.u ≠ none ∧ (Err.unbound x.u ∈ st'.errs → Err.unbound x.u ∈ st.errs)
  bad : (∀ u ∈ ids, st.decl u = none) → ∀ x ∈ E, (¬ ∃ d, x.Means C d) → Err.unbound x.u ∈ st'.errs

theorem Visit.nil (C : Services) (st : St) : Visit C [] [] [] st st where
  inF := by simp
  inE := by simp
  keep := fun _ _ => rfl
  mono := fun _ h => h
  errs := fun _ h => h
  errs' := fun _ h => .inl h
  plain := by simp
  qual := by simp
  good := by simp
  bad := by simp

theorem Visit.pre {C : Services} {ids : List Nat} {F E : List UseAt} {st st1 st2 : St} (s : Same st st1)
    (v : Visit C ids F E st1 st2) : Visit C ids F E st st2 where
  inF := v.inF
  inE := v.inE
  keep := fun u h => (v.keep u h).trans (s.decl u)
  mono := fun u h => v.mono u (by rw [s.decl]; exact h)
  errs := fun u h => v.errs u ((s.errs u).2 h)
  errs' := fun u h => by
    rcases v.errs' u h with h | ⟨h, e⟩
    · exact .inl ((s.errs u).1 h)
    · exact .inr ⟨h, by rw [← s.decl]; exact e⟩
  plain := fun x hx hq => by rw [v.plain x hx hq, s.decl]
  qual := v.qual
  good := fun h x hx hm => by
    obtain ⟨a, b⟩ := v.good (fun u hu => by rw [s.decl]; exact h u hu) x hx hm
    exact ⟨a, fun e => (s.errs _).1 (b e)⟩
  bad := fun h x hx hm => v.bad (fun u hu => by rw [s.decl]; exact h u hu) x hx hm

theorem Visit.comp {C : Services} {i1 i2 : List Nat} {F1 E1 F2 E2 : List UseAt} {st st1 st2 : St}
    (a : Visit C i1 F1 E1 st st1) (b : Visit C i2 F2 E2 st1 st2) (hd : List.Disjoint i1 i2) :
    Visit C (i1 ++ i2) (F1 ++ F2) (E1 ++ E2) st st2 where
  inF := fun x hx => by
    rcases List.mem_append.1 hx with h | h
    · exact List.mem_append_left _ (a.inF x h)
    · exact List.mem_append_right _ (b.inF x h)
  inE := fun x hx => by
    rcases List.mem_append.1 hx with h | h
    · exact List.mem_append_left _ (a.inE x h)
    · exact List.mem_append_right _ (b.inE x h)
  keep := fun u h => by
    simp only [List.mem_append, not_or] at h
    rw [b.keep u h.2, a.keep u h.1]
  mono := fun u h => b.mono u (a.mono u h)
  errs := fun u h => b.errs u (a.errs u h)
  errs' := fun u h => by
    rcases b.errs' u h with h | ⟨h, e⟩
    · rcases a.errs' u h with h | ⟨h, e⟩
      · exact .inl h
      · exact .inr ⟨List.mem_append_left _ h, e⟩
    · refine .inr ⟨List.mem_append_right _ h, ?_⟩
      rw [← a.keep u fun h' => hd h' h]; exact e
  plain := fun x hx hq => by
    rcases List.mem_append.1 hx with h | h
    · rw [b.keep _ (fun h' => hd (a.inF x h) h'), a.plain x h hq]
    · rw [b.plain x h hq, a.keep _ fun h' => hd h' (b.inF x h)]
  qual := fun x hx hq d hm => by
    rcases List.mem_append.1 hx with h | h
    · rw [b.keep _ (fun h' => hd (a.inF x h) h'), a.qual x h hq d hm]
    · exact b.qual x h hq d hm
  good := fun h0 x hx hm => by
    rcases List.mem_append.1 hx with h | h
    · obtain ⟨p, q⟩ := a.good (fun u hu => h0 u (List.mem_append_left _ hu)) x h hm
      refine ⟨b.mono _ p, fun e => ?_⟩
      rcases b.errs' _ e with e | ⟨e, -⟩
      · exact q e
      · exact absurd e fun h' => hd (a.inE x h) h'
    · have h0' : ∀ u ∈ i2, st1.decl u = none := fun u hu => by
        rw [a.keep u fun h' => hd h' hu]; exact h0 u (List.mem_append_right _ hu)
      obtain ⟨p, q⟩ := b.good h0' x h hm
      refine ⟨p, fun e => ?_⟩
      rcases a.errs' _ (q e) with e | ⟨e, -⟩
      · exact e
      · exact absurd (b.inE x h) fun h' => hd e h'
  bad := fun h0 x hx hm => by
    rcases List.mem_append.1 hx with h | h
    · exact b.errs _ (a.bad (fun u hu => h0 u (List.mem_append_left _ hu)) x h hm)
    · have h0' : ∀ u ∈ i2, st1.decl u = none := fun u hu => by
        rw [a.keep u fun h' => hd h' hu]; exact h0 u (List.mem_append_right _ hu)
      exact b.bad h0' x h hm

/-- A second visit with more in scope. -/
theorem Visit.again {C : Services} {ids : List Nat} {F1 E1 F2 E2 : List UseAt} {st st1 st2 : St}
    (a : Visit C ids F1 E1 st st1) (b : Visit C ids F2 E2 st1 st2)
    (h : ∀ x ∈ F2, x.qualifier = none → res x.chain x.nm x.ns = none →
      ∃ y ∈ F1, y.u = x.u ∧ y.qualifier = none ∧ res y.chain y.nm y.ns = none) :
    Visit C ids F2 E1 st st2 where
  inF := b.inF
  inE := a.inE
  keep := fun u h => by rw [b.keep u h, a.keep u h]
  mono := fun u h => b.mono u (a.mono u h)
  errs := fun u h => b.errs u (a.errs u h)
  errs' := fun u h => by
    rcases b.errs' u h with h | ⟨h, e⟩
    · exact a.errs' u h
    · refine .inr ⟨h, ?_⟩
      by_contra hc
      exact a.mono u hc e
  plain := fun x hx hq => by
    rw [b.plain x hx hq]
    cases hr : res x.chain x.nm x.ns with
    | some d => rfl
    | none =>
      obtain ⟨y, hy, e, hq', hr'⟩ := h x hx hq hr
      have := a.plain y hy hq'
      rw [hr', e] at this
      simpa using this
  qual := b.qual
  good := fun h0 x hx hm => by
    obtain ⟨p, q⟩ := a.good h0 x hx hm
    refine ⟨b.mono _ p, fun e => ?_⟩
    rcases b.errs' _ e with e | ⟨-, e⟩
    · exact q e
    · exact absurd e p
  bad := fun h0 x hx hm => b.errs _ (a.bad h0 x hx hm)

/-! ### One use -/

theorem bindName_decl {sc : List Item} {ch : Chain} (r : Rep sc ch) (u ns nm : Nat) (st : St) (v : Nat) :
    (bindName u ns nm (infos sc) st).decl v = if v = u then (res ch nm ns <|> st.decl u) else st.decl v := by
  rw [← r nm ns]
  simp only [bindName]
  cases (infos sc).find? (answers nm ns) with
  | none =>
    by_cases h : v = u
    · subst h; simp
    · simp [h]
  | some i =>
    by_cases h : v = u
    · subst h; simp [St.decl]
    · have : (u == v) = false := by simpa using fun e => h e.symm
      simp [St.decl, h, List.find?_cons, this]

theorem bindName_errs (u ns nm : Nat) (sc : List Info) (st : St) : (bindName u ns nm sc st).errs = st.errs := by
  simp only [bindName]; split <;> rfl

theorem check_decl (u : Nat) (st : St) (v : Nat) : (check u st).decl v = st.decl v := by
  simp only [check]
  split <;> rfl

theorem check_errs (u : Nat) (st : St) (v : Nat) :
    Err.unbound v ∈ (check u st).errs ↔ Err.unbound v ∈ st.errs ∨ (v = u ∧ st.decl u = none) := by
  cases h : st.decl u with
  | some d => simp [check, h]
  | none => simp [check, h]

theorem visit_use {C : Services} {sc : List Item} {ch : Chain} (r : Rep sc ch) (u ns nm : Nat) (st : St) :
    Visit C [u] [⟨u, ns, nm, none, ch⟩] [⟨u, ns, nm, none, ch⟩] st (check u (bindName u ns nm (infos sc) st)) where
  inF := by simp
  inE := by simp
  keep := fun v h => by
    simp only [List.mem_singleton] at h
    rw [check_decl, bindName_decl r, if_neg h]
  mono := fun v h => by
    rw [check_decl, bindName_decl r]
    by_cases e : v = u
    · subst e
      rw [if_pos rfl]
      cases res ch nm ns <;> simp_all
    · rw [if_neg e]; exact h
  errs := fun v h => by rw [check_errs, bindName_errs]; exact .inl h
  errs' := fun v h => by
    rw [check_errs, bindName_errs, bindName_decl r, if_pos rfl] at h
    rcases h with h | ⟨rfl, h⟩
    · exact .inl h
    · refine .inr ⟨by simp, ?_⟩
      cases hr : res ch nm ns <;> rw [hr] at h
      · simpa using h
      · simp at h
  plain := fun x hx _ => by
    simp only [List.mem_singleton] at hx; subst hx
    rw [check_decl, bindName_decl r, if_pos rfl]
  qual := fun x hx hq => by
    simp only [List.mem_singleton] at hx; subst hx
    exact absurd rfl hq
  good := fun h0 x hx hm => by
    simp only [List.mem_singleton] at hx; subst hx
    obtain ⟨d, hm⟩ := hm
    simp only [UseAt.Means] at hm
    rw [res_iff] at hm
    rw [check_decl, bindName_decl r, if_pos rfl, check_errs, bindName_errs, bindName_decl r, if_pos rfl, hm]
    simp
  bad := fun h0 x hx hm => by
    simp only [List.mem_singleton] at hx; subst hx
    simp only [UseAt.Means, res_iff] at hm
    rw [check_errs, bindName_errs, bindName_decl r, if_pos rfl]
    refine .inr ⟨rfl, ?_⟩
    rw [h0 u (by simp)]
    cases hr : res ch nm ns with
    | none => rfl
    | some d => exact absurd ⟨d, hr⟩ hm

theorem repSvc (f : Frame) (nm ns : Nat) : (f.reverse.find? (answers nm ns)).map (·.id) = res [f] nm ns := by
  simp [res, flatC]

theorem bindName_svc (f : Frame) (u ns nm : Nat) (st : St) (v : Nat) :
    (bindName u ns nm f.reverse st).decl v = if v = u then (res [f] nm ns <|> st.decl u) else st.decl v := by
  have r : Rep (f.reverse.map fun i => ⟨i, 0⟩) [f] := by
    intro nm ns
    have e : infos (f.reverse.map fun i => ⟨i, 0⟩) = f.reverse := by simp [infos, Function.comp_def]
    rw [e, repSvc]
  have := bindName_decl r u ns nm st v
  have e : infos (f.reverse.map fun i => ⟨i, 0⟩) = f.reverse := by simp [infos, Function.comp_def]
  rwa [e] at this

end Aps.Bind
