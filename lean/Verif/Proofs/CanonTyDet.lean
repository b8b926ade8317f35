import Verif.Proofs.CanonTyStep
/-! Meanings are unique, and canonical types in normal form have different meanings; for C85. -/
namespace Aps.CanonTy
open Aps.CType
set_option linter.unusedVariables false
variable {P : Prog}

theorem result_not_formal (wf : WellFormed P) {p : List Nat} {d : Nat} {b : Bool} (h : ResultIn P p d) (hd : P.decl d = .formal b) : False := by
  obtain ⟨T, q, m, r, fs, as, e1, ⟨e2, g, e3⟩, rfl⟩ := h
  obtain ⟨t, ht⟩ := (wf.result _ _ _ _ e3).2
  rw [hd] at ht; cases ht

theorem own_not_formal {d : Nat} {b : Bool} (h : Own P d) (hd : P.decl d = .formal b) : False := by
  rcases h with h | ⟨_, _, h⟩ <;> rw [hd] at h <;> cases h

theorem own_not_alias {d : Nat} {t : TExp} (h : Own P d) (hd : Alias P d t) : False := by
  rcases h with h | ⟨_, _, h⟩ <;> cases hd <;> simp_all

theorem formal_not_alias {d : Nat} {b : Bool} {t : TExp} (h : P.decl d = .formal b) (hd : Alias P d t) : False := by
  cases hd <;> simp_all

mutual
theorem DenD.det (wf : WellFormed P) {p : List Nat} {d : Nat} {S S' : Sem} (h : DenD P p d S) (h' : DenD P p d S') : S = S' := by
  match h with
  | .result h1 =>
    cases h' with
    | result => rfl
    | formal _ _ e => exact (result_not_formal wf h1 e).elim
    | free _ e => exact (result_not_formal wf h1 e).elim
    | own _ e => exact absurd h1 e
    | alias_ _ e => exact absurd h1 e
  | .formal h1 h2 h3 h4 h5 h6 =>
    cases h' with
    | result e => exact (result_not_formal wf e h3).elim
    | formal e1 e2 e3 e4 e5 e6 =>
      rw [h1] at e1
      simp only [List.cons.injEq] at e1
      obtain ⟨rfl, rfl⟩ := e1
      obtain ⟨a1, g1, a2⟩ := h2
      obtain ⟨b1, g2, b2⟩ := e2
      rw [a1] at b1; cases b1
      rw [a2] at b2; cases b2
      have := nodup_get (wf.formals _ _ _ _ a2) h4 e4
      subst this
      rw [h5] at e5; cases e5
      exact DenT.det wf h6 e6
    | free e => rw [h1] at e; cases e
    | own e => exact (own_not_formal e h3).elim
    | alias_ e => exact (formal_not_alias h3 e).elim
  | .free h1 h2 =>
    cases h' with
    | result e => exact (result_not_formal wf e h2).elim
    | formal e => rw [h1] at e; cases e
    | free => rfl
    | own e => exact (own_not_formal e h2).elim
    | alias_ e => exact (formal_not_alias h2 e).elim
  | .own h1 h2 =>
    cases h' with
    | result e => exact absurd e h2
    | formal _ _ e => exact (own_not_formal h1 e).elim
    | free _ e => exact (own_not_formal h1 e).elim
    | own => rfl
    | alias_ e => exact (own_not_alias h1 e).elim
  | .alias_ h1 h2 h3 =>
    cases h' with
    | result e => exact absurd e h2
    | formal _ _ e => exact (formal_not_alias e h1).elim
    | free _ e => exact (formal_not_alias e h1).elim
    | own e => exact (own_not_alias e h1).elim
    | alias_ e1 e2 e3 =>
      have := Alias.unique h1 e1
      subst this
      exact DenT.det wf h3 e3

theorem DenT.det (wf : WellFormed P) {p : List Nat} {t : TExp} {S S' : Sem} (h : DenT P p t S) (h' : DenT P p t S') : S = S' := by
  match h with
  | .use h1 => cases h' with | use e1 => exact DenD.det wf h1 e1
  | .qual h1 h2 h3 h4 =>
    cases h' with
    | qual e1 e2 e3 e4 =>
      have := DenT.det wf h1 e1
      simp only [Sem.named.injEq, List.cons.injEq] at this
      obtain ⟨rfl, rfl⟩ := this
      exact DenD.det wf h4 e4
  | .remote h1 => cases h' with | remote e1 => exact DenT.det wf h1 e1
  | .func h1 h2 h3 =>
    cases h' with
    | func e1 e2 e3 =>
      have := DenT.det wf h1 e1
      subst this
      congr 1
      apply List.ext_getElem?
      intro i
      rename_i ps r Ss _ Ss'
      by_cases hi : i < ps.length
      · have l1 : i < Ss.length := h2 ▸ hi
        have l2 : i < Ss'.length := e2 ▸ hi
        rw [List.getElem?_eq_getElem l1, List.getElem?_eq_getElem l2]
        congr 1
        exact DenT.det wf (h3 i ps[i] Ss[i] (List.getElem?_eq_getElem hi) (List.getElem?_eq_getElem l1))
          (e3 i ps[i] Ss'[i] (List.getElem?_eq_getElem hi) (List.getElem?_eq_getElem l2))
      · rw [List.getElem?_eq_none (by omega), List.getElem?_eq_none (by omega)]
end

/-- A canonical type in normal form is read off its meaning. -/
theorem NFC.den (wf : WellFormed P) {C : Ty} (h : NFC P C) : ∀ {C' : Ty} {S : Sem}, NFC P C' →
    DenT P [] (toExp C) S → DenT P [] (toExp C') S → C = C' := by
  have useDen : ∀ {d S}, NFC P (.use d) → DenT P [] (.use d) S → S = .named [d] := by
    intro d S hn hd
    cases hd with
    | use hd =>
      have hne : ¬ ResultIn P (home P [] d) d := by rintro ⟨T, q, m, r, fs, as, e1, -⟩; cases e1
      cases hn with
      | own ho => exact DenD.det wf hd (.own ho hne)
      | formal hf => exact DenD.det wf hd (.free rfl hf)
  have qualDen : ∀ {s d S}, NFC P (.qual s d) → DenT P [] (toExp (.qual s d)) S → ∃ T q, DenT P [] (toExp s) (.named (T :: q)) ∧ S = .named (d :: T :: q) := by
    intro s d S hn hd
    cases hn with
    | qual hs ho hr =>
      cases hd with
      | @qual _ _ _ T q m r fs as _ d1 d2 d3 d4 =>
        refine ⟨T, q, d1, ?_⟩
        have hh := home_of_mem (q := q) d2.1 d3
        have := DenD.det wf d4 (.own ho (not_result_in wf hr))
        rw [hh] at this; exact this
  induction h with
  | own ho =>
    intro C' S hn h1 h2
    have e1 := useDen (.own ho) h1
    cases C' with
    | use d' => have e2 := useDen hn h2; rw [e1] at e2; cases e2; rfl
    | qual s d' => obtain ⟨T, q, _, e2⟩ := qualDen hn h2; rw [e1] at e2; cases e2
    | func ps r => cases h2 <;> cases e1
  | formal ho =>
    intro C' S hn h1 h2
    have e1 := useDen (.formal ho) h1
    cases C' with
    | use d' => have e2 := useDen hn h2; rw [e1] at e2; cases e2; rfl
    | qual s d' => obtain ⟨T, q, _, e2⟩ := qualDen hn h2; rw [e1] at e2; cases e2
    | func ps r => cases h2 <;> cases e1
  | qual hs ho hr ih =>
    intro C' S hn h1 h2
    obtain ⟨T, q, k1, e1⟩ := qualDen (.qual hs ho hr) h1
    cases C' with
    | use d' => have e2 := useDen hn h2; rw [e1] at e2; cases e2
    | qual s d' =>
      obtain ⟨T', q', k2, e2⟩ := qualDen hn h2
      rw [e1] at e2; cases e2
      cases hn with
      | qual hs' => rw [ih hs' k1 k2]
    | func ps r => cases h2 <;> cases e1
  | func hp hr ih1 ih2 =>
    rename_i ps r
    intro C' S hn h1 h2
    cases h1 with
    | func d1 d2 d3 =>
      cases C' with
      | use d' => have e2 := useDen hn h2; cases e2
      | qual s d' => obtain ⟨T', q', k2, e2⟩ := qualDen hn h2; cases e2
      | func ps' r' =>
        cases hn with
        | func hp' hr' =>
          cases h2 with
          | func e1 e2 e3 =>
            rw [ih2 hr' d1 e1]
            congr 1
            rw [toExps_length] at d2 e2
            rename_i Ss _
            apply List.ext_getElem?
            intro i
            by_cases hi : i < ps.length
            · have l1 : i < ps'.length := by omega
              have l2 : i < Ss.length := by omega
              rw [List.getElem?_eq_getElem hi, List.getElem?_eq_getElem l1]
              congr 1
              refine ih1 ps[i] (List.getElem_mem hi) (hp' _ (List.getElem_mem l1))
                (d3 i _ Ss[i] ?_ (List.getElem?_eq_getElem l2)) (e3 i _ Ss[i] ?_ (List.getElem?_eq_getElem l2))
              · rw [toExps_get, List.getElem?_eq_getElem hi]; rfl
              · rw [toExps_get, List.getElem?_eq_getElem l1]; rfl
            · rw [List.getElem?_eq_none (by omega), List.getElem?_eq_none (by omega)]

mutual
/-- The names in a canonical type that stand first. -/
def heads : Ty → List Nat
  | .use d => [d]
  | .qual s _ => heads s
  | .func ps r => headsOf ps ++ heads r
def headsOf : List Ty → List Nat
  | [] => []
  | t :: ts => heads t ++ headsOf ts
end

theorem mem_headsOf {ts : List Ty} {t : Ty} (h : t ∈ ts) {d : Nat} (hd : d ∈ heads t) : d ∈ headsOf ts := by
  induction ts with
  | nil => cases h
  | cons u ts ih =>
    simp only [headsOf, List.mem_append]
    rcases List.mem_cons.1 h with rfl | h
    · exact .inl hd
    · exact .inr (ih h)

theorem NFR.nfc {C : Ty} (h : NFR P C) (ho : ∀ d ∈ heads C, isSomeResultDecl P d = true → Own P d) : NFC P C := by
  induction h with
  | own h => exact .own h
  | formal h => exact .formal h
  | result h => exact .own (ho _ (by simp [heads]) h)
  | qual _ h1 h2 ih => exact .qual (ih (by simpa [heads] using ho)) h1 h2
  | func _ _ ih1 ih2 =>
    simp only [heads, List.mem_append] at ho
    exact .func (fun t ht => ih1 t ht (fun d hd => ho d (.inl (mem_headsOf ht hd)))) (ih2 (fun d hd => ho d (.inr hd)))

end Aps.CanonTy
