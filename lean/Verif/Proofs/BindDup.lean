import Verif.Proofs.BindMain
set_option linter.unusedVariables false
/-! Name binding: every use is in the list of uses; duplicates. -/
namespace Aps.Bind

mutual
theorem ids_uses (C : Services) (full : Bool) : ∀ (n : Node) (ch : Chain), ∀ u ∈ ids n, ∃ x ∈ uses C full n ch, x.u = u
  | .use u ns nm, ch, v, h => by simp only [ids, List.mem_singleton] at h; subst h; exact ⟨_, by simp only [uses, List.mem_singleton]; rfl, rfl⟩
  | .qual u ns nm fu fnm, ch, v, h => by
    simp only [ids, List.mem_cons, List.not_mem_nil, or_false] at h
    rcases h with rfl | rfl
    · exact ⟨_, by simp only [uses, List.mem_cons]; exact .inl rfl, rfl⟩
    · exact ⟨_, by simp only [uses, List.mem_cons]; exact .inr (.inl rfl), rfl⟩
  | .other cs, ch, u, h => idsL_uses C full cs ch u h
  | .stmt cs, ch, u, h => idsL_uses C full cs ch u h
  | .decl _ cs, ch, u, h => idsL_uses C full cs ch u h
  | .block ds, ch, u, h => idsL_uses C full ds _ u h
  | .mtch pat rest, ch, u, h => by
    simp only [ids, List.mem_append] at h
    simp only [uses]
    rcases h with h | h
    · obtain ⟨x, hx, e⟩ := ids_uses C full pat (decls pat :: ch) u h; exact ⟨x, List.mem_append_left _ hx, e⟩
    · obtain ⟨x, hx, e⟩ := idsL_uses C full rest (decls pat :: ch) u h; exact ⟨x, List.mem_append_right _ hx, e⟩
  | .cls i fs ri rest, ch, u, h => by
    simp only [ids, List.mem_append] at h
    simp only [uses]
    rcases h with h | h
    · obtain ⟨x, hx, e⟩ := idsL_uses C full fs (if full then [ri] :: declsL fs :: ch else declsL fs :: ch) u h
      exact ⟨x, List.mem_append_left _ hx, e⟩
    · obtain ⟨x, hx, e⟩ := idsL_uses C full rest ([ri] :: declsL fs :: ch) u h; exact ⟨x, List.mem_append_right _ hx, e⟩
  | .modul i fs parent vfs ri rsig ext rtype contents, ch, u, h => by
    simp only [ids, List.mem_append] at h
    simp only [uses, List.mem_append]
    rcases h with h | h | h | h | h
    · obtain ⟨x, hx, e⟩ := idsL_uses C full fs (declsL fs :: ch) u h
      exact ⟨x, .inl hx, e⟩
    · obtain ⟨x, hx, e⟩ := idsL_uses C full parent (declsL fs :: ch) u h
      exact ⟨x, .inr (.inl hx), e⟩
    · obtain ⟨x, hx, e⟩ := idsL_uses C full vfs (declsL vfs :: declsL fs :: ch) u h
      exact ⟨x, .inr (.inr (.inl hx)), e⟩
    · obtain ⟨x, hx, e⟩ := idsL_uses C full rsig ([ri] :: declsL vfs :: declsL fs :: ch) u h
      exact ⟨x, .inr (.inr (.inr (.inl hx))), e⟩
    · cases ext with
      | none =>
        simp only [List.mem_append] at h ⊢
        rcases h with h | h
        · obtain ⟨x, hx, e⟩ := idsL_uses C full rtype ([ri] :: declsL vfs :: declsL fs :: ch) u h
          exact ⟨x, .inr (.inr (.inr (.inr (.inl hx)))), e⟩
        · obtain ⟨x, hx, e⟩ := idsL_uses C full contents (declsL contents :: [ri] :: declsL vfs :: declsL fs :: ch) u h
          exact ⟨x, .inr (.inr (.inr (.inr (.inr hx)))), e⟩
      | some un =>
        obtain ⟨v, nm⟩ := un
        simp only [List.mem_cons] at h ⊢
        rcases h with rfl | h
        · exact ⟨_, .inr (.inr (.inr (.inr (.inl rfl)))), rfl⟩
        · obtain ⟨x, hx, e⟩ := idsL_uses C full contents
            (declsL contents :: extFrame C ([ri] :: declsL vfs :: declsL fs :: ch) nm :: [ri] :: declsL vfs :: declsL fs :: ch) u h
          exact ⟨x, .inr (.inr (.inr (.inr (.inr hx)))), e⟩
  | .func i fs rs rest, ch, u, h => by
    simp only [ids, List.mem_append] at h
    simp only [uses, List.mem_append]
    rcases h with h | h | h
    · obtain ⟨x, hx, e⟩ := idsL_uses C full fs (if full then declsL rs :: declsL fs :: ch else declsL fs :: ch) u h
      exact ⟨x, .inl hx, e⟩
    · obtain ⟨x, hx, e⟩ := idsL_uses C full rs (declsL rs :: declsL fs :: ch) u h
      exact ⟨x, .inr (.inl hx), e⟩
    · obtain ⟨x, hx, e⟩ := idsL_uses C full rest (declsL rs :: declsL fs :: ch) u h
      exact ⟨x, .inr (.inr hx), e⟩
  | .poly i fs body, ch, u, h => by
    simp only [ids, List.mem_append] at h
    simp only [uses, List.mem_append]
    rcases h with h | h
    · obtain ⟨x, hx, e⟩ := idsL_uses C full fs (declsL fs :: ch) u h
      exact ⟨x, .inl hx, e⟩
    · obtain ⟨x, hx, e⟩ := idsL_uses C full body (declsL body :: declsL fs :: ch) u h
      exact ⟨x, .inr hx, e⟩
  | .forIn formal seq body, ch, u, h => by
    simp only [ids, List.mem_append] at h
    simp only [uses, List.mem_append]
    rcases h with h | h | h
    · obtain ⟨x, hx, e⟩ := ids_uses C full seq ch u h
      exact ⟨x, .inl hx, e⟩
    · obtain ⟨x, hx, e⟩ := ids_uses C full formal (decls formal :: ch) u h
      exact ⟨x, .inr (.inl hx), e⟩
    · obtain ⟨x, hx, e⟩ := ids_uses C full body (decls formal :: ch) u h
      exact ⟨x, .inr (.inr hx), e⟩
  | .ctrl expr formal set, ch, u, h => by
    simp only [ids, List.mem_append] at h
    simp only [uses, List.mem_append]
    rcases h with h | h | h
    · obtain ⟨x, hx, e⟩ := ids_uses C full set ch u h
      exact ⟨x, .inl hx, e⟩
    · obtain ⟨x, hx, e⟩ := ids_uses C full formal (decls formal :: ch) u h
      exact ⟨x, .inr (.inl hx), e⟩
    · obtain ⟨x, hx, e⟩ := ids_uses C full expr (decls formal :: ch) u h
      exact ⟨x, .inr (.inr hx), e⟩
theorem idsL_uses (C : Services) (full : Bool) : ∀ (ns : List Node) (ch : Chain), ∀ u ∈ idsL ns, ∃ x ∈ usesL C full ns ch, x.u = u
  | [], ch, u, h => by simp [idsL] at h
  | n :: ns, ch, u, h => by
    simp only [idsL, List.mem_append] at h
    simp only [usesL, List.mem_append]
    rcases h with h | h
    · obtain ⟨x, hx, e⟩ := ids_uses C full n ch u h; exact ⟨x, .inl hx, e⟩
    · obtain ⟨x, hx, e⟩ := idsL_uses C full ns ch u h; exact ⟨x, .inr hx, e⟩
end

theorem unitIds_uses (C : Services) (full : Bool) : ∀ (us : List Unit) (ch : Chain), ∀ u ∈ unitIds us, ∃ x ∈ unitUses C full us ch, x.u = u
  | [], ch, u, h => by simp [unitIds] at h
  | .withU _ :: us, ch, u, h => unitIds_uses C full us ch u h
  | .declU d :: us, ch, u, h => by
    simp only [unitIds, List.mem_append] at h
    simp only [unitUses, List.mem_append]
    rcases h with h | h
    · obtain ⟨x, hx, e⟩ := ids_uses C full d ch u h; exact ⟨x, .inl hx, e⟩
    · obtain ⟨x, hx, e⟩ := unitIds_uses C full us ch u h; exact ⟨x, .inr hx, e⟩

/-! ### Errors stay -/

/-- No error is taken back. -/
def Keeps (st st' : St) : Prop := ∀ e ∈ st.errs, e ∈ st'.errs

theorem Keeps.refl (st : St) : Keeps st st := fun _ h => h
theorem Keeps.trans {a b c : St} (h : Keeps a b) (h' : Keeps b c) : Keeps a c := fun e he => h' e (h e he)

theorem addItem_keeps (cur : Nat) (i : Info) (s : List Item × St) : Keeps s.2 (addItem cur i s).2 := by
  intro e h
  unfold addItem
  split
  · exact h
  · exact List.mem_append_left _ h

mutual
theorem getB_keeps : ∀ (n : Node) (cur : Nat) (s : List Item × St), Keeps s.2 (getB cur n s).2
  | .use _ _ _, _, s => .refl _
  | .qual _ _ _ _ _, _, s => .refl _
  | .other cs, cur, s => getBs_keeps cs cur s
  | .stmt _, _, s => .refl _
  | .block ds, cur, s => getBs_keeps ds cur s
  | .mtch pat rest, cur, s => (getB_keeps pat cur s).trans (getBs_keeps rest cur _)
  | .decl i _, cur, s => addItem_keeps cur i s
  | .cls i _ _ _, cur, s => addItem_keeps cur i s
  | .modul i _ _ _ _ _ _ _ _, cur, s => addItem_keeps cur i s
  | .func i _ _ _, cur, s => addItem_keeps cur i s
  | .poly i _ body, cur, s => (addItem_keeps cur i s).trans (getBs_keeps body _ ((addItem cur i s).1, { (addItem cur i s).2 with next := (addItem cur i s).2.next + 1 }))
  | .forIn _ _ _, _, s => .refl _
  | .ctrl expr formal set, cur, s => ((getB_keeps expr cur s).trans (getB_keeps formal cur _)).trans (getB_keeps set cur _)
theorem getBs_keeps : ∀ (ns : List Node) (cur : Nat) (s : List Item × St), Keeps s.2 (getBs cur ns s).2
  | [], _, s => .refl _
  | n :: ns, cur, s => (getB_keeps n cur s).trans (getBs_keeps ns cur _)
end

theorem addAll_keeps (cur : Nat) : ∀ (f : List Info) (s : List Item × St), Keeps s.2 (addAll cur f s).2
  | [], s => .refl _
  | i :: f, s => (addItem_keeps cur i s).trans (addAll_keeps cur f _)

theorem bindName_keeps (u ns nm : Nat) (sc : List Info) (st : St) : Keeps st (bindName u ns nm sc st) := by
  unfold bindName; split <;> exact .refl _
theorem check_keeps (u : Nat) (st : St) : Keeps st (check u st) := by
  unfold check; split
  · exact .refl _
  · exact fun e h => List.mem_append_left _ h

mutual
theorem bindN_keeps (C : Services) : ∀ (n : Node) (sc : List Item) (st : St), Keeps st (bindN C sc n st)
  | .use u ns nm, sc, st => (bindName_keeps _ _ _ _ _).trans (check_keeps _ _)
  | .qual u ns nm fu fnm, sc, st => by
    simp only [bindN]
    refine Keeps.trans ?_ (check_keeps _ _)
    refine Keeps.trans ?_ (bindName_keeps _ _ _ _ _)
    refine Keeps.trans ?_ (check_keeps _ _)
    refine Keeps.trans ?_ (bindName_keeps _ _ _ _ _)
    split
    · exact (bindName_keeps fu nameType fnm (infos sc) st).trans fun e h => List.mem_append_left _ h
    · exact bindName_keeps _ _ _ _ _
  | .other cs, sc, st => bindNs_keeps C cs sc st
  | .stmt cs, sc, st => bindNs_keeps C cs sc st
  | .block ds, sc, st => (getBs_keeps ds 0 (sc, st)).trans (bindNs_keeps C ds _ _)
  | .mtch pat rest, sc, st => ((getB_keeps pat 0 (sc, st)).trans (bindN_keeps C pat _ _)).trans (bindNs_keeps C rest _ _)
  | .decl _ cs, sc, st => bindNs_keeps C cs sc st
  | .cls _ fs ri rest, sc, st =>
    ((((getBs_keeps fs 0 (sc, st)).trans (bindNs_keeps C fs _ _)).trans (addItem_keeps 0 ri (_, _))).trans (bindNs_keeps C fs _ _)).trans
      (bindNs_keeps C rest _ _)
  | .modul _ fs parent vfs ri rsig ext rtype contents, sc, st => by
    simp only [bindN]
    cases ext with
    | none =>
      refine Keeps.trans ?_ (bindNs_keeps C contents _ _)
      refine Keeps.trans ?_ (getBs_keeps contents 0 (_, _))
      refine Keeps.trans ?_ (bindNs_keeps C rtype _ _)
      refine Keeps.trans ?_ (bindNs_keeps C rsig _ _)
      refine Keeps.trans ?_ (addItem_keeps 0 ri (_, _))
      refine Keeps.trans ?_ (bindNs_keeps C vfs _ _)
      refine Keeps.trans ?_ (getBs_keeps vfs 0 (_, _))
      refine Keeps.trans ?_ (bindNs_keeps C parent _ _)
      exact (getBs_keeps fs 0 (sc, st)).trans (bindNs_keeps C fs _ _)
    | some un =>
      refine Keeps.trans ?_ (bindNs_keeps C contents _ _)
      refine Keeps.trans ?_ (getBs_keeps contents 0 _)
      refine Keeps.trans ?_ (addAll_keeps _ _ _)
      refine Keeps.trans ?_ (check_keeps un.1 _)
      refine Keeps.trans ?_ (bindName_keeps _ _ _ _ _)
      refine Keeps.trans ?_ (bindNs_keeps C rsig _ _)
      refine Keeps.trans ?_ (addItem_keeps 0 ri (_, _))
      refine Keeps.trans ?_ (bindNs_keeps C vfs _ _)
      refine Keeps.trans ?_ (getBs_keeps vfs 0 (_, _))
      refine Keeps.trans ?_ (bindNs_keeps C parent _ _)
      exact (getBs_keeps fs 0 (sc, st)).trans (bindNs_keeps C fs _ _)
  | .func _ fs rs rest, sc, st =>
    ((((((getBs_keeps fs 0 (sc, st)).trans (bindNs_keeps C fs _ _)).trans (getBs_keeps rs 0 (_, _))).trans (bindNs_keeps C rs _ _)).trans
      (bindNs_keeps C fs _ _)).trans (bindNs_keeps C rs _ _)).trans (bindNs_keeps C rest _ _)
  | .poly _ fs body, sc, st =>
    ((((getBs_keeps fs 0 (sc, st)).trans (bindNs_keeps C fs _ _)).trans (bindNs_keeps C fs _ _)).trans (getBs_keeps body 0 (_, _))).trans
      (bindNs_keeps C body _ _)
  | .forIn formal seq body, sc, st =>
    (((bindN_keeps C seq sc st).trans (getB_keeps formal 0 (sc, _))).trans (bindN_keeps C formal _ _)).trans (bindN_keeps C body _ _)
  | .ctrl expr formal set, sc, st =>
    (((bindN_keeps C set sc st).trans (getB_keeps formal 0 (sc, _))).trans (bindN_keeps C formal _ _)).trans (bindN_keeps C expr _ _)
theorem bindNs_keeps (C : Services) : ∀ (ns : List Node) (sc : List Item) (st : St), Keeps st (bindNs C sc ns st)
  | [], sc, st => .refl _
  | n :: ns, sc, st => (bindN_keeps C n sc st).trans (bindNs_keeps C ns sc _)
end

theorem bindU_keeps (C : Services) : ∀ (us : List Unit) (sc : List Item) (st : St), Keeps st (bindU C sc us st)
  | [], sc, st => .refl _
  | .withU _ :: us, sc, st => bindU_keeps C us sc st
  | .declU d :: us, sc, st => (bindN_keeps C d sc st).trans (bindU_keeps C us sc _)

theorem addAll_append (cur : Nat) : ∀ (f g : List Info) (s : List Item × St), addAll cur (f ++ g) s = addAll cur g (addAll cur f s)
  | [], g, s => rfl
  | i :: f, g, s => addAll_append cur f g _

/-! ### Every scope opened -/

theorem getBs_one (cur : Nat) (n : Node) (s : List Item × St) : getBs cur [n] s = getB cur n s := rfl

mutual
theorem opened_seen (C : Services) : ∀ (n : Node) (ds : List Node), ds ∈ opened n → ∀ sc st, ∃ s, Keeps (getBs 0 ds s).2 (bindN C sc n st)
  | .use _ _ _, ds, h, _, _ => by simp [opened] at h
  | .qual _ _ _ _ _, ds, h, _, _ => by simp [opened] at h
  | .other cs, ds, h, sc, st => openedL_seen C cs ds h sc st
  | .stmt cs, ds, h, sc, st => openedL_seen C cs ds h sc st
  | .decl _ cs, ds, h, sc, st => openedL_seen C cs ds h sc st
  | .block cs, ds, h, sc, st => by
    simp only [opened, List.mem_cons] at h
    rcases h with rfl | h
    · exact ⟨(sc, st), bindNs_keeps C ds _ _⟩
    · exact openedL_seen C cs ds h _ _
  | .mtch pat rest, ds, h, sc, st => by
    simp only [opened, List.mem_cons, List.mem_append] at h
    simp only [bindN]
    rcases h with rfl | h | h
    · exact ⟨(sc, st), (bindN_keeps C pat _ _).trans (bindNs_keeps C rest _ _)⟩
    · obtain ⟨s, k⟩ := opened_seen C pat ds h (getB 0 pat (sc, st)).1 (getB 0 pat (sc, st)).2
      exact ⟨s, k.trans (bindNs_keeps C rest _ _)⟩
    · exact openedL_seen C rest ds h _ _
  | .cls _ fs ri rest, ds, h, sc, st => by
    simp only [opened, List.mem_cons, List.mem_append] at h
    simp only [bindN]
    rcases h with rfl | h | h
    · refine ⟨(sc, st), Keeps.trans ?_ (bindNs_keeps C rest _ _)⟩
      refine Keeps.trans ?_ (bindNs_keeps C ds _ _)
      refine Keeps.trans ?_ (addItem_keeps 0 ri (_, _))
      exact bindNs_keeps C ds _ _
    · obtain ⟨s, k⟩ := openedL_seen C fs ds h (getBs 0 fs (sc, st)).1 (getBs 0 fs (sc, st)).2
      refine ⟨s, Keeps.trans ?_ (bindNs_keeps C rest _ _)⟩
      refine Keeps.trans ?_ (bindNs_keeps C fs _ _)
      refine Keeps.trans ?_ (addItem_keeps 0 ri (_, _))
      exact k
    · exact openedL_seen C rest ds h _ _
  | .modul _ fs parent vfs ri rsig ext rtype contents, ds, h, sc, st => by
    simp only [opened, List.mem_cons, List.mem_append] at h
    simp only [bindN]
    generalize hg1 : getBs 0 fs (sc, st) = g1
    generalize hs1 : bindNs C g1.1 fs g1.2 = s1
    generalize hs2 : bindNs C g1.1 parent s1 = s2
    generalize hg2 : getBs 0 vfs (g1.1, s2) = g2
    generalize hs3 : bindNs C g2.1 vfs g2.2 = s3
    generalize hg3 : addItem 0 ri (g2.1, s3) = g3
    generalize hs4 : bindNs C g3.1 rsig g3.2 = s4
    have k1 : Keeps g1.2 s1 := hs1 ▸ bindNs_keeps C fs _ _
    have k2 : Keeps s1 s2 := hs2 ▸ bindNs_keeps C parent _ _
    have k3 : Keeps s2 g2.2 := hg2 ▸ getBs_keeps vfs 0 (g1.1, s2)
    have k4 : Keeps g2.2 s3 := hs3 ▸ bindNs_keeps C vfs _ _
    have k5 : Keeps s3 g3.2 := hg3 ▸ addItem_keeps 0 ri (g2.1, s3)
    have k6 : Keeps g3.2 s4 := hs4 ▸ bindNs_keeps C rsig _ _
    cases ext with
    | none =>
      simp only
      generalize hs5 : bindNs C g3.1 rtype s4 = s5
      have k7 : Keeps s4 s5 := hs5 ▸ bindNs_keeps C rtype _ _
      have k8 := (getBs_keeps contents 0 (g3.1, s5)).trans (bindNs_keeps C contents (getBs 0 contents (g3.1, s5)).1 _)
      rcases h with rfl | rfl | rfl | h | h | h | h | h | h
      · exact ⟨(sc, st), hg1 ▸ (((((((k1.trans k2).trans k3).trans k4).trans k5).trans k6).trans k7).trans k8)⟩
      · exact ⟨(g1.1, s2), hg2 ▸ ((((k4.trans k5).trans k6).trans k7).trans k8)⟩
      · exact ⟨(g3.1, s5), bindNs_keeps C ds _ _⟩
      · obtain ⟨s, k⟩ := openedL_seen C fs ds h g1.1 g1.2
        rw [hs1] at k
        exact ⟨s, ((((((k.trans k2).trans k3).trans k4).trans k5).trans k6).trans k7).trans k8⟩
      · obtain ⟨s, k⟩ := openedL_seen C parent ds h g1.1 s1
        rw [hs2] at k
        exact ⟨s, (((((k.trans k3).trans k4).trans k5).trans k6).trans k7).trans k8⟩
      · obtain ⟨s, k⟩ := openedL_seen C vfs ds h g2.1 g2.2
        rw [hs3] at k
        exact ⟨s, (((k.trans k5).trans k6).trans k7).trans k8⟩
      · obtain ⟨s, k⟩ := openedL_seen C rsig ds h g3.1 g3.2
        rw [hs4] at k
        exact ⟨s, (k.trans k7).trans k8⟩
      · obtain ⟨s, k⟩ := openedL_seen C rtype ds h g3.1 s4
        rw [hs5] at k
        exact ⟨s, k.trans k8⟩
      · exact openedL_seen C contents ds h _ _
    | some un =>
      simp only
      generalize hs5 : check un.1 (bindName un.1 nameType un.2 (infos g3.1) s4) = s5
      have k7 : Keeps s4 s5 := hs5 ▸ (bindName_keeps _ _ _ _ _).trans (check_keeps _ _)
      generalize hg5 : addAll s5.next (C.extOf (s5.decl un.1)) (g3.1, { s5 with next := s5.next + 1 }) = g5
      have k7' : Keeps s5 g5.2 := hg5 ▸ addAll_keeps s5.next (C.extOf (s5.decl un.1)) (g3.1, { s5 with next := s5.next + 1 })
      have k8 := k7'.trans ((getBs_keeps contents 0 g5).trans (bindNs_keeps C contents (getBs 0 contents g5).1 _))
      rcases h with rfl | rfl | rfl | h | h | h | h | h | h
      · exact ⟨(sc, st), hg1 ▸ (((((((k1.trans k2).trans k3).trans k4).trans k5).trans k6).trans k7).trans k8)⟩
      · exact ⟨(g1.1, s2), hg2 ▸ ((((k4.trans k5).trans k6).trans k7).trans k8)⟩
      · exact ⟨g5, bindNs_keeps C ds _ _⟩
      · obtain ⟨s, k⟩ := openedL_seen C fs ds h g1.1 g1.2
        rw [hs1] at k
        exact ⟨s, ((((((k.trans k2).trans k3).trans k4).trans k5).trans k6).trans k7).trans k8⟩
      · obtain ⟨s, k⟩ := openedL_seen C parent ds h g1.1 s1
        rw [hs2] at k
        exact ⟨s, (((((k.trans k3).trans k4).trans k5).trans k6).trans k7).trans k8⟩
      · obtain ⟨s, k⟩ := openedL_seen C vfs ds h g2.1 g2.2
        rw [hs3] at k
        exact ⟨s, (((k.trans k5).trans k6).trans k7).trans k8⟩
      · obtain ⟨s, k⟩ := openedL_seen C rsig ds h g3.1 g3.2
        rw [hs4] at k
        exact ⟨s, (k.trans k7).trans k8⟩
      · simp at h
      · exact openedL_seen C contents ds h _ _
  | .func _ fs rs rest, ds, h, sc, st => by
    simp only [opened, List.mem_cons, List.mem_append] at h
    simp only [bindN]
    generalize hg1 : getBs 0 fs (sc, st) = g1
    generalize hs1 : bindNs C g1.1 fs g1.2 = s1
    generalize hg2 : getBs 0 rs (g1.1, s1) = g2
    generalize hs2 : bindNs C g2.1 rs g2.2 = s2
    have k1 : Keeps g1.2 s1 := hs1 ▸ bindNs_keeps C fs _ _
    have k2 : Keeps s1 g2.2 := hg2 ▸ getBs_keeps rs 0 (g1.1, s1)
    have k3 : Keeps g2.2 s2 := hs2 ▸ bindNs_keeps C rs _ _
    have k4 := ((bindNs_keeps C fs g2.1 s2).trans (bindNs_keeps C rs g2.1 _)).trans (bindNs_keeps C rest g2.1 _)
    rcases h with rfl | rfl | h | h | h
    · exact ⟨(sc, st), hg1 ▸ ((k1.trans k2).trans k3).trans k4⟩
    · exact ⟨(g1.1, s1), hg2 ▸ k3.trans k4⟩
    · obtain ⟨s, k⟩ := openedL_seen C fs ds h g1.1 g1.2
      rw [hs1] at k
      exact ⟨s, ((k.trans k2).trans k3).trans k4⟩
    · obtain ⟨s, k⟩ := openedL_seen C rs ds h g2.1 g2.2
      rw [hs2] at k
      exact ⟨s, k.trans k4⟩
    · exact openedL_seen C rest ds h _ _
  | .poly _ fs body, ds, h, sc, st => by
    simp only [opened, List.mem_cons, List.mem_append] at h
    simp only [bindN]
    generalize hg1 : getBs 0 fs (sc, st) = g1
    generalize hs1 : bindNs C g1.1 fs g1.2 = s1
    generalize hs2 : bindNs C g1.1 fs s1 = s2
    have k1 : Keeps g1.2 s1 := hs1 ▸ bindNs_keeps C fs _ _
    have k2 : Keeps s1 s2 := hs2 ▸ bindNs_keeps C fs _ _
    have k3 := (getBs_keeps body 0 (g1.1, s2)).trans (bindNs_keeps C body (getBs 0 body (g1.1, s2)).1 _)
    rcases h with rfl | rfl | h | h
    · exact ⟨(sc, st), hg1 ▸ (k1.trans k2).trans k3⟩
    · exact ⟨(g1.1, s2), bindNs_keeps C ds _ _⟩
    · obtain ⟨s, k⟩ := openedL_seen C fs ds h g1.1 g1.2
      rw [hs1] at k
      exact ⟨s, (k.trans k2).trans k3⟩
    · exact openedL_seen C body ds h _ _
  | .forIn formal seq body, ds, h, sc, st => by
    simp only [opened, List.mem_cons, List.mem_append] at h
    simp only [bindN]
    generalize hs1 : bindN C sc seq st = s1
    generalize hg1 : getB 0 formal (sc, s1) = g1
    have k1 : Keeps s1 g1.2 := hg1 ▸ getB_keeps formal 0 (sc, s1)
    have k2 := (bindN_keeps C formal g1.1 g1.2).trans (bindN_keeps C body g1.1 _)
    rcases h with rfl | h | h | h
    · exact ⟨(sc, s1), by rw [getBs_one, hg1]; exact k2⟩
    · obtain ⟨s, k⟩ := opened_seen C formal ds h g1.1 g1.2
      exact ⟨s, k.trans (bindN_keeps C body g1.1 _)⟩
    · obtain ⟨s, k⟩ := opened_seen C seq ds h sc st
      rw [hs1] at k
      exact ⟨s, (k.trans k1).trans k2⟩
    · exact opened_seen C body ds h _ _
  | .ctrl expr formal set, ds, h, sc, st => by
    simp only [opened, List.mem_cons, List.mem_append] at h
    simp only [bindN]
    generalize hs1 : bindN C sc set st = s1
    generalize hg1 : getB 0 formal (sc, s1) = g1
    have k1 : Keeps s1 g1.2 := hg1 ▸ getB_keeps formal 0 (sc, s1)
    have k2 := (bindN_keeps C formal g1.1 g1.2).trans (bindN_keeps C expr g1.1 _)
    rcases h with rfl | h | h | h
    · exact ⟨(sc, s1), by rw [getBs_one, hg1]; exact k2⟩
    · obtain ⟨s, k⟩ := opened_seen C formal ds h g1.1 g1.2
      exact ⟨s, k.trans (bindN_keeps C expr g1.1 _)⟩
    · obtain ⟨s, k⟩ := opened_seen C set ds h sc st
      rw [hs1] at k
      exact ⟨s, (k.trans k1).trans k2⟩
    · exact opened_seen C expr ds h _ _
theorem openedL_seen (C : Services) : ∀ (ns : List Node) (ds : List Node), ds ∈ openedL ns → ∀ sc st, ∃ s, Keeps (getBs 0 ds s).2 (bindNs C sc ns st)
  | [], ds, h, _, _ => by simp [openedL] at h
  | n :: ns, ds, h, sc, st => by
    simp only [openedL, List.mem_append] at h
    rcases h with h | h
    · obtain ⟨s, k⟩ := opened_seen C n ds h sc st
      exact ⟨s, k.trans (bindNs_keeps C ns sc _)⟩
    · exact openedL_seen C ns ds h sc _
end

theorem openedU_seen (C : Services) : ∀ (us : List Unit) (ds : List Node), ds ∈ openedU us → ∀ sc st, ∃ s, Keeps (getBs 0 ds s).2 (bindU C sc us st)
  | [], ds, h, _, _ => by simp [openedU] at h
  | .withU _ :: us, ds, h, sc, st => openedU_seen C us ds h sc st
  | .declU d :: us, ds, h, sc, st => by
    simp only [openedU, List.mem_append] at h
    rcases h with h | h
    · obtain ⟨s, k⟩ := opened_seen C d ds h sc st
      exact ⟨s, k.trans (bindU_keeps C us sc _)⟩
    · exact openedU_seen C us ds h sc _

/-! ### Duplicates in one scope -/

mutual
theorem getB_addAll (cur : Nat) : ∀ (n : Node), noPoly n → ∀ s, getB cur n s = addAll cur (decls n) s
  | .use _ _ _, _, s => rfl
  | .qual _ _ _ _ _, _, s => rfl
  | .other cs, h, s => getBs_addAll cur cs h s
  | .stmt _, _, s => rfl
  | .block ds, h, s => getBs_addAll cur ds h s
  | .mtch pat rest, h, s => by
    simp only [getB, decls, addAll_append, getB_addAll cur pat h.1, getBs_addAll cur rest h.2]
  | .decl i _, _, s => rfl
  | .cls i _ _ _, _, s => rfl
  | .modul i _ _ _ _ _ _ _ _, _, s => rfl
  | .func i _ _ _, _, s => rfl
  | .poly i _ body, h, s => h.elim
  | .forIn _ _ _, _, s => rfl
  | .ctrl expr formal set, h, s => by
    simp only [getB, decls, addAll_append, getB_addAll cur expr h.1, getB_addAll cur formal h.2.1, getB_addAll cur set h.2.2]
theorem getBs_addAll (cur : Nat) : ∀ (ns : List Node), noPolyL ns → ∀ s, getBs cur ns s = addAll cur (declsL ns) s
  | [], _, s => rfl
  | n :: ns, h, s => by simp only [getBs, declsL, addAll_append, getB_addAll cur n h.1, getBs_addAll cur ns h.2]
end

theorem addAll_items (cur : Nat) (a : Info) (nm : Nat) (ha : a.name = some nm) : ∀ (f : List Info) (s : List Item × St),
    (∃ pre post, s.1 = pre ++ ⟨a, cur⟩ :: post ∧ ∀ o ∈ pre, o.env = cur) →
    ∃ pre post, (addAll cur f s).1 = pre ++ ⟨a, cur⟩ :: post ∧ ∀ o ∈ pre, o.env = cur
  | [], s, h => h
  | i :: f, s, h => by
    refine addAll_items cur a nm ha f _ ?_
    obtain ⟨pre, post, e, hp⟩ := h
    unfold addItem
    split
    · exact ⟨pre, post, e, hp⟩
    · refine ⟨⟨i, cur⟩ :: pre, post, by simp [e], ?_⟩
      intro o ho
      rcases List.mem_cons.1 ho with rfl | ho
      · rfl
      · exact hp o ho

theorem addAll_dup (cur : Nat) (l1 l2 l3 : List Info) (a b : Info) (hc : Clash a b) (s : List Item × St) :
    Err.dup b.id a.id ∈ (addAll cur (l1 ++ a :: (l2 ++ b :: l3)) s).2.errs := by
  obtain ⟨nm, ha, hb, hn⟩ := hc
  rw [addAll_append]
  show _ ∈ (addAll cur (l2 ++ b :: l3) (addItem cur a (addAll cur l1 s))).2.errs
  rw [addAll_append]
  show _ ∈ (addAll cur l3 (addItem cur b (addAll cur l2 (addItem cur a (addAll cur l1 s))))).2.errs
  refine addAll_keeps cur l3 _ _ ?_
  obtain ⟨pre, post, e, hp⟩ := addAll_items cur a nm ha l2 (addItem cur a (addAll cur l1 s))
    ⟨[], (addAll cur l1 s).1, by simp only [addItem, ha]; rfl, by simp⟩
  generalize addAll cur l2 (addItem cur a (addAll cur l1 s)) = t at e ⊢
  simp only [addItem, hb]
  refine List.mem_append_right _ (List.mem_map.2 ⟨⟨a, cur⟩, List.mem_filter.2 ⟨?_, ?_⟩, rfl⟩)
  · rw [e, List.takeWhile_append_of_pos (by intro o ho; simp [hp o ho])]
    exact List.mem_append_right _ (by simp [List.takeWhile_cons])
  · simp only [answers, ha]
    simpa using hn

end Aps.Bind
