import Verif.Proofs.EdgeGenWay
set_option linter.unusedVariables false
/-! Agreement with the numbering of conditionals. -/
namespace Aps.Gen
open Aps.Dnc Aps.Oag Aps.IfCond

mutual
theorem fresh_st : ∀ (s : St) (k : Nat) (used : List Nat), (countD s.erase k).1 = s.erase → (countD s.erase k).2 ≤ 32 → noForD s.erase →
    (∀ u ∈ used, u < k) → s.Fresh used
  | .value _ _ _ _, k, used, h1, h2, h3, h4 => trivial
  | .assign _ _, k, used, h1, h2, h3, h4 => trivial
  | .ifS id ix _ t f, k, used, h1, h2, h3, h4 => by
    simp only [St.erase, countD, Dcl.ifS.injEq, true_and] at h1
    simp only [St.erase, countD] at h2
    obtain ⟨rfl, h5, h6⟩ := h1
    have l1 := countB_le t.erase (k + 1)
    have l2 := countB_le f.erase (countB t.erase (k + 1)).2
    have hu : ∀ u ∈ k :: used, u < k + 1 := by
      intro u hu
      rcases List.mem_cons.1 hu with rfl | hu
      · omega
      · have := h4 u hu; omega
    refine ⟨by omega, fun hk => by have := h4 k hk; omega, ?_, ?_⟩
    · exact fresh_sts t (k + 1) _ h5 (by omega) h3.1 hu
    · exact fresh_sts f _ _ h6 h2 h3.2 (fun u h => by have := hu u h; omega)
  | .caseS _ ms dflt, k, used, h1, h2, h3, h4 => by
    simp only [St.erase, countD, Dcl.caseS.injEq, true_and] at h1
    simp only [St.erase, countD] at h2
    obtain ⟨h5, h6⟩ := h1
    rw [numMats_count] at h5 h6 h2
    have l1 := countM_le ms.erase (k + matLen ms.erase)
    have l2 := countB_le dflt.erase (countM ms.erase (k + matLen ms.erase)).2
    obtain ⟨h7, h8⟩ := fresh_mts ms k (k + matLen ms.erase) used h5 (by omega) h3.1 (le_refl _) h4
    refine ⟨h7, fresh_sts dflt _ _ h6 h2 h3.2 ?_⟩
    intro u hu
    rcases List.mem_append.1 hu with hu | hu
    · obtain ⟨y, hy, rfl⟩ := List.mem_map.1 hu
      have := h8 y hy; omega
    · have := h4 u hu; omega
  | .forS _ ms, k, used, h1, h2, h3, h4 => absurd h3 (by simp [St.erase, noForD])
  | .forIn _ _ body, k, used, h1, h2, h3, h4 => by
    simp only [St.erase, countD, Dcl.group.injEq, true_and] at h1
    simp only [St.erase, countD] at h2
    exact fresh_sts body k used h1 h2 h3 h4
  | .skip, k, used, h1, h2, h3, h4 => trivial
theorem fresh_sts : ∀ (b : Sts) (k : Nat) (used : List Nat), (countB b.erase k).1 = b.erase → (countB b.erase k).2 ≤ 32 → noForB b.erase →
    (∀ u ∈ used, u < k) → b.Fresh used
  | .nil, k, used, h1, h2, h3, h4 => trivial
  | .cons s rest, k, used, h1, h2, h3, h4 => by
    simp only [Sts.erase, countB, Blk.cons.injEq] at h1
    simp only [Sts.erase, countB] at h2
    have l1 := countD_le s.erase k
    have l2 := countB_le rest.erase (countD s.erase k).2
    exact ⟨fresh_st s k used h1.1 (by omega) h3.1 h4, fresh_sts rest _ used h1.2 h2 h3.2 (fun u hu => by have := h4 u hu; omega)⟩
theorem fresh_mts : ∀ (ms : Mts) (c k : Nat) (used : List Nat), (numMats (countM ms.erase k).1 c).1 = ms.erase →
    (countM ms.erase k).2 ≤ 32 → noForM ms.erase → c + matLen ms.erase ≤ k → (∀ u ∈ used, u < c) →
    ms.FreshCase used ∧ ∀ y ∈ ms.failed, y.1 < c + matLen ms.erase
  | .nil, c, k, used, h1, h2, h3, h4, h5 => ⟨trivial, by simp [Mts.failed]⟩
  | .cons id ix _ _ body rest, c, k, used, h1, h2, h3, h4, h5 => by
    simp only [Mts.erase, countM, numMats, Mats.cons.injEq, true_and] at h1
    simp only [Mts.erase, countM] at h2
    simp only [Mts.erase, matLen] at h4
    obtain ⟨rfl, h6, h7⟩ := h1
    have l1 := countB_le body.erase k
    have l2 := countM_le rest.erase (countB body.erase k).2
    have hu : ∀ u ∈ c :: used, u < c + 1 := by
      intro u hu
      rcases List.mem_cons.1 hu with rfl | hu
      · omega
      · have := h5 u hu; omega
    obtain ⟨h8, h9⟩ := fresh_mts rest (c + 1) _ (c :: used) h7 h2 h3.2 (by omega) hu
    refine ⟨⟨by omega, fun hk => by have := h5 c hk; omega, ?_, h8⟩, ?_⟩
    · exact fresh_sts body k _ h6 (by omega) h3.1 (fun u h => by have := hu u h; omega)
    · intro y hy
      simp only [Mts.failed, List.mem_cons] at hy
      simp only [Mts.erase, matLen]
      rcases hy with rfl | hy
      · simp only; omega
      · have := h9 y hy; omega
end

/-- the conditional is in the tables -/
def Listed (rules : List (Nat × Nat)) (conds : List (Nat × Cond)) (x : Cnd) : Prop :=
  (x.ix, x.id) ∈ rules ∧ ∃ c, (x.id, c) ∈ conds ∧ ∃ used, OnWay x.way c used

theorem Listed.mono {rules rules' conds conds' x} (h : Listed rules conds x) (hr : ∀ y ∈ rules, y ∈ rules') (hc : ∀ y ∈ conds, y ∈ conds') :
    Listed rules' conds' x := by
  obtain ⟨h1, c, h2, h3⟩ := h
  exact ⟨hr _ h1, c, hc _ h2, h3⟩

theorem condsCase_last : ∀ (ms : Mts) (w : Way) (c : Cond) (used : List Nat), OnWay w c used → ms.FreshCase used →
    OnWay (w ++ ms.failed) (condsCase c ms.erase).2 (ms.failed.map (·.1) ++ used)
  | .nil, w, c, used, hw, hf => by simpa [Mts.failed, Mts.erase, condsCase] using hw
  | .cons _ ix formals conds body rest, w, c, used, hw, hf => by
    obtain ⟨hi, hn, _, hr⟩ := hf
    simp only [Mts.erase, condsCase]
    rw [hw.clear hi hn]
    have := condsCase_last rest (w ++ [(ix, false)]) _ (ix :: used) (hw.no hi hn) hr
    simp only [Mts.failed]
    rw [show w ++ (ix, false) :: rest.failed = w ++ [(ix, false)] ++ rest.failed by simp]
    exact this.mono fun x hx => by
      simp only [List.map_cons, List.mem_append, List.mem_cons] at hx ⊢
      tauto

mutual
theorem listed_st : ∀ (s : St) (w : Way) (c : Cond) (used : List Nat), OnWay w c used → s.Fresh used → noForD s.erase →
    ∀ x ∈ s.ifs w, Listed (rulesD s.erase) (condsD c s.erase) x
  | .value _ _ _ _, w, c, used, hw, hf, hn, x, hx => by simp [St.ifs] at hx
  | .assign _ _, w, c, used, hw, hf, hn, x, hx => by simp [St.ifs] at hx
  | .ifS id ix _ t f, w, c, used, hw, hf, hn, x, hx => by
    obtain ⟨hi, hu, ht, hff⟩ := hf
    simp only [St.ifs, List.mem_cons, List.mem_append] at hx
    simp only [St.erase, rulesD, condsD]
    rcases hx with rfl | hx | hx
    · exact ⟨by simp, c, by simp, used, hw⟩
    · exact (listed_sts t _ _ _ (hw.yes hi hu) ht hn.1 x hx).mono (fun y hy => by simp [hy]) (fun y hy => by simp [hy])
    · exact (listed_sts f _ _ _ (hw.no hi hu) hff hn.2 x hx).mono (fun y hy => by simp [hy]) (fun y hy => by simp [hy])
  | .caseS _ ms dflt, w, c, used, hw, hf, hn, x, hx => by
    simp only [St.ifs, List.mem_append] at hx
    simp only [St.erase, rulesD, condsD]
    rcases hx with hx | hx
    · exact (listed_mts ms w c used hw hf.1 hn.1 x hx).mono (fun y hy => by
        rcases List.mem_append.1 hy with hy | hy <;> simp [hy]) (fun y hy => by simp [hy])
    · exact (listed_sts dflt _ _ _ (condsCase_last ms w c used hw hf.1) hf.2 hn.2 x hx).mono (fun y hy => by simp [hy])
        (fun y hy => by simp [hy])
  | .forS _ ms, w, c, used, hw, hf, hn, x, hx => absurd hn (by simp [St.erase, noForD])
  | .forIn _ _ body, w, c, used, hw, hf, hn, x, hx => by
    simp only [St.ifs] at hx
    simp only [St.erase, rulesD, condsD]
    exact (listed_sts body w c used hw hf hn x hx).mono (fun y hy => hy) (fun y hy => by simp [hy])
  | .skip, w, c, used, hw, hf, hn, x, hx => by simp [St.ifs] at hx
theorem listed_sts : ∀ (b : Sts) (w : Way) (c : Cond) (used : List Nat), OnWay w c used → b.Fresh used → noForB b.erase →
    ∀ x ∈ b.ifs w, Listed (rulesB b.erase) (condsB c b.erase) x
  | .nil, w, c, used, hw, hf, hn, x, hx => by simp [Sts.ifs] at hx
  | .cons s rest, w, c, used, hw, hf, hn, x, hx => by
    simp only [Sts.ifs, List.mem_append] at hx
    simp only [Sts.erase, rulesB, condsB]
    rcases hx with hx | hx
    · exact (listed_st s w c used hw hf.1 hn.1 x hx).mono (fun y hy => by simp [hy]) (fun y hy => by simp [hy])
    · exact (listed_sts rest w c used hw hf.2 hn.2 x hx).mono (fun y hy => by simp [hy]) (fun y hy => by simp [hy])
theorem listed_mts : ∀ (ms : Mts) (w : Way) (c : Cond) (used : List Nat), OnWay w c used → ms.FreshCase used → noForM ms.erase →
    ∀ x ∈ ms.ifsCase w, Listed (ruleMats ms.erase ++ rulesM ms.erase) (condsCase c ms.erase).1 x
  | .nil, w, c, used, hw, hf, hn, x, hx => by simp [Mts.ifsCase] at hx
  | .cons id ix _ _ body rest, w, c, used, hw, hf, hn, x, hx => by
    obtain ⟨hi, hu, hb, hr⟩ := hf
    simp only [Mts.ifsCase, List.mem_cons, List.mem_append] at hx
    simp only [Mts.erase, ruleMats, rulesM, condsCase]
    rcases hx with rfl | hx | hx
    · exact ⟨by simp, c, by simp, used, hw⟩
    · exact (listed_sts body _ _ _ (hw.yes hi hu) hb hn.1 x hx).mono (fun y hy => by simp [hy]) (fun y hy => by simp [hy])
    · rw [hw.clear hi hu]
      exact (listed_mts rest _ _ _ (hw.no hi hu) hr hn.2 x hx).mono (fun y hy => by
        rcases List.mem_append.1 hy with hy | hy <;> simp [hy]) (fun y hy => by simp [hy])
end

end Aps.Gen
