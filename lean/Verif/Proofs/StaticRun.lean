import Verif.Proofs.StaticWalk
set_option linter.unusedVariables false
/-!
# Static visit procedures: running the code of one visit
-/
namespace Aps.Static

open Aps.Oag

variable {V : Type} {ph : Phyla} {P : Prod V} {J : Store V → Prop}
variable {prods : List (Prod V)} {kids : List Tree} {a : Addr} {call : Nat → Nat → Store V → Res (Store V)}

/-- the walk is in the part of visit `phase`, or just before it -/
def Mode (P : Prod V) (phase : Nat) (l : List Nat) (T : Cto) : Prop :=
  P.cur l = phase ∨ P.cur l + 1 = phase ∧
    ((P.cur l = 0 ∧ ∀ j ∈ l, P.IsRule j) ∨
     ∃ i next inst, T = .node i next ∧ P.insts[i]? = some inst ∧ inst.lhs = true ∧ P.cur l < inst.ph.natAbs)

theorem InhReady.mono {p k : Nat} {new st : Store V} (h : InhReady ph p a k st) : InhReady ph p a k (new ++ st) := by
  intro x s h1 h2 h3 h4
  rw [keys_append]
  exact List.mem_append_right _ (h x s h1 h2 h3 h4)

theorem wrap_silent {inst : Inst V} {i : Nat} {asg : Asg V} {cps : List Nat} {rest : Code V}
    (he : emits inst (asg[i]?.getD none) = none) (hc : childChange inst cps = none) : wrap inst i asg cps rest = rest := by
  simp [wrap, he, hc]

theorem wrap_assign {inst : Inst V} {i : Nat} {asg : Asg V} {cps : List Nat} {rest : Code V} {e : Expr V}
    (he : emits inst (asg[i]?.getD none) = some e) (hc : childChange inst cps = none) : wrap inst i asg cps rest = .assign i e rest := by
  simp [wrap, he, hc]

theorem wrap_visit {inst : Inst V} {i c : Nat} {asg : Asg V} {cps : List Nat} {rest : Code V}
    (he : emits inst (asg[i]?.getD none) = none) (hc : childChange inst cps = some c) :
    wrap inst i asg cps rest = .visit c inst.ph.toNat rest := by
  simp [wrap, he, hc]

theorem cur_le_of_mode {phase : Nat} {l : List Nat} {T : Cto} (h : Mode P phase l T) : P.cur l ≤ phase := by
  rcases h with h | ⟨h, _⟩ <;> omega

/-- One instance that is not a conditional, in the part of this visit: the code printed for it runs, and leaves
the state for the next instance. -/
theorem run_node (hV : Valid ph prods) (hP : P ∈ prods) (hJ : Adds J P a) (hcall : CallOk J ph prods P kids a call)
    (hkl : kids.length = P.kidPhy.length) {phase : Nat} {next : Cto} {σ : Nat → Bool} {l post : List Nat} {i : Nat} {inst : Inst V}
    {st : Store V} {nv : Option V} (h : St J ph prods P kids a (.node i next) σ l st nv) (hp : P.path σ = l ++ i :: post)
    (hpos : Pos ph P l i inst) (hinh : InhReady ph P.lhsPhy a phase st) (hcur : P.cur (l ++ [i]) = phase) (rest : Code V) :
    ∃ new, (∀ s ∈ keys new, Terr ph (some P.lhsPhy) a s) ∧ St J ph prods P kids a next σ (l ++ [i]) (new ++ st) nv ∧
      run P call a (wrap inst i (P.asg σ l) (P.cps l) rest) nv st = run P call a rest nv (new ++ st) := by
  have hs := hV.scheduled P hP
  have hd := hV.described P hP
  have hnr : ¬ P.IsRule i := h.shaped.1
  have hi := hpos.found
  have hrn : inst.rule = none := by
    cases hru : inst.rule with
    | none => rfl
    | some x => exact absurd ⟨inst, hi, by rw [hru]; rfl⟩ hnr
  -- an assignment
  have assigned : inst.inward = false → P.Output σ i → (∀ c, P.cp c (l ++ [i]) = P.cp c l) →
      (∀ rhs, emits inst rhs = rhs) → childChange inst (P.cps l) = none →
      ∃ new, (∀ s ∈ keys new, Terr ph (some P.lhsPhy) a s) ∧ St J ph prods P kids a next σ (l ++ [i]) (new ++ st) nv ∧
        run P call a (wrap inst i (P.asg σ l) (P.cps l) rest) nv st = run P call a rest nv (new ++ st) := by
    intro hin hout hcp hem hcc
    obtain ⟨e, vs, h1, h2, h3, h4⟩ := step_assign hV hP hJ h hp hpos hrn hin hout hcp
    refine ⟨_, ?_, h3, ?_⟩
    · intro s hs'
      simp [keys] at hs'
      subst hs'
      exact h4
    · rw [wrap_assign (by rw [hem, h1]) hcc]
      simp only [run, h2, Res.ok_bind, hi]
      rfl
  -- nothing
  have silent : (P.Stored i → inst.slot a ∈ keys st) → (inst.inward = false → ¬ P.Stored i) →
      (∀ c, P.cp c (l ++ [i]) = P.cp c l) → (∀ rhs, emits inst rhs = none) → childChange inst (P.cps l) = none →
      ∃ new, (∀ s ∈ keys new, Terr ph (some P.lhsPhy) a s) ∧ St J ph prods P kids a next σ (l ++ [i]) (new ++ st) nv ∧
        run P call a (wrap inst i (P.asg σ l) (P.cps l) rest) nv st = run P call a rest nv (new ++ st) := by
    intro hst hout hcp hem hcc
    refine ⟨[], by simp [keys], step_skip hV hP h hi hrn hst hout hcp, ?_⟩
    rw [wrap_silent (hem _) hcc]
    rfl
  cases hch : inst.ch with
  | some c =>
    have hl := lhs_of_ch hd hi hch
    obtain ⟨kp, hk, hsc, hkind, hio⟩ := hd.ch i inst c hi hch
    obtain ⟨hcl, hcase⟩ := hpos.ch c hch
    rcases hcase with ⟨hneg, habs⟩ | ⟨h0, habs⟩
    · -- inherited attribute of a child
      have hin : inst.inward = false := by
        cases hh : inst.inward with
        | false => rfl
        | true => have := hio.1 hh; omega
      have hcp : ∀ c, P.cp c (l ++ [i]) = P.cp c l := by
        intro c'; rw [cp_snoc P c' l hi, if_neg (by omega)]
      have hcc : childChange inst (P.cps l) = none := (change_none_iff hpos).2 fun _ _ h => by omega
      cases himp : ph.implicit kp inst.attr with
      | false =>
        rw [himp] at hkind
        exact assigned hin ⟨inst, hi, .inr (.inl ⟨by simp [hch], hneg, hkind⟩)⟩ hcp (by simp [emits, hin, hkind]) hcc
      | true =>
        rw [himp] at hkind
        have hns : ¬ P.Stored i := by
          rintro ⟨x, hx, _, hk'⟩; rw [hi] at hx; cases hx; rw [hkind] at hk'; simp at hk'
        exact silent (fun h => absurd h hns) (fun _ => hns) hcp (by simp [emits, hin, hkind]) hcc
    · -- synthesised attribute of a child
      have hin : inst.inward = true := hio.2 h0
      have hem : ∀ rhs, emits inst rhs = none := by simp [emits, hin]
      obtain ⟨kid, hkid⟩ : ∃ kid, kids[c]? = some kid := ⟨_, List.getElem?_eq_getElem (by omega)⟩
      have hsub := h.kids c kid (some kp) hkid hk
      have hslot : inst.slot a = (c :: a, Key.attr inst.attr) := by unfold Inst.slot; rw [hch]
      have hready : ∀ {st' : Store V}, Sub ph prods st' (some kp) kid (c :: a) inst.ph.natAbs → P.Stored i → inst.slot a ∈ keys st' := by
        rintro st' hsub' ⟨x, hx, _, hk'⟩
        rw [hi] at hx; cases hx
        rw [hkind] at hk'
        have himp : ph.implicit kp inst.attr = false := by simpa using hk'
        rw [hslot]
        exact hsub'.syn hV inst.attr inst.ph hsc h0 (Nat.le_refl _) himp
      rcases habs with habs | habs
      · have hcp : ∀ c, P.cp c (l ++ [i]) = P.cp c l := by
          intro c'
          rw [cp_snoc P c' l hi]
          split
          · rename_i hh
            have : c = c' := Option.some.inj (hch.symm.trans hh.1)
            subst this; exact habs
          · rfl
        have hcc : childChange inst (P.cps l) = none := (change_none_iff hpos).2 fun c' hc' _ => by
          have : c = c' := Option.some.inj (hch.symm.trans hc')
          subst this; exact habs
        exact silent (hready (by rw [habs]; exact hsub)) (fun hf => by rw [hin] at hf; cases hf) hcp hem hcc
      · have hcc : childChange inst (P.cps l) = some c := (change_iff hpos).2 ⟨hch, h0, habs⟩
        have hvis := (hV.phased.range _ _ _ hsc).2
        obtain ⟨new, hj, h1, h2, h3, h4⟩ := hcall c kid kp (P.cp c l) st hkid hk hsub (by omega)
          (by rw [← habs]; exact inh_ready hV hP hp hpos h.inv hch h0 hk) h.nodup h.good
        have hn := nodup_new h2
        refine ⟨new, fun s hs' => terr_up (h3 s hs'), ⟨h.shaped.2, split_node h.split, ?_, ?_, (h.node.frame hn).other hi hrn, h2, hj⟩, ?_⟩
        · refine (h.inv.frame hn ?_).skip hi (hready (by rw [habs]; exact h4)) (fun hf => by rw [hin] at hf; cases hf)
            fun rule hr => by rw [hrn] at hr; cases hr
          intro j x hj hjr hjo hm
          exact own_not_kid hV.phased hd hj hjr hjo a hk (h3 _ hm)
        · intro c' kid' o hc' ho
          rw [cp_snoc P c' l hi]
          by_cases hcc' : c = c'
          · subst hcc'
            rw [if_pos ⟨hch, h0⟩, habs]
            rw [hkid] at hc'; cases hc'
            rw [hk] at ho; cases ho
            exact h4
          · rw [if_neg fun hh => hcc' (Option.some.inj (hch.symm.trans hh.1))]
            exact (h.kids c' kid' o hc' ho).frame hV hn fun s hs' hT => hcc' (terr_kids (h3 s hs') hT)
        · rw [wrap_visit (hem _) hcc]
          simp only [run]
          rw [show inst.ph.toNat = P.cp c l + 1 by omega, h1]
          rfl
  | none =>
    have hcp : ∀ c, P.cp c (l ++ [i]) = P.cp c l := by
      intro c'; rw [cp_snoc P c' l hi, if_neg (by simp [hch])]
    have hcc : childChange inst (P.cps l) = none := by simp [childChange, hch]
    by_cases hl : inst.lhs = true
    · obtain ⟨_, hsc, hkind, hio⟩ := hd.lhs i inst hi hl
      rw [cur_snoc P l hi, if_pos hl] at hcur
      obtain ⟨h0, _⟩ := hpos.lhs hl
      by_cases hneg : inst.ph < 0
      · have hin : inst.inward = true := hio.2 hneg
        refine silent ?_ (fun hf => by rw [hin] at hf; cases hf) hcp (by simp [emits, hin]) hcc
        rintro ⟨x, hx, _, hk'⟩
        rw [hi] at hx; cases hx
        rw [hkind] at hk'
        have himp : ph.implicit P.lhsPhy inst.attr = false := by simpa using hk'
        have := hinh inst.attr inst.ph hsc hneg (by omega) himp
        unfold Inst.slot
        rw [hch]
        simpa [hl] using this
      · have hin : inst.inward = false := by
          cases hh : inst.inward with
          | false => rfl
          | true => exact absurd (hio.1 hh) hneg
        cases himp : ph.implicit P.lhsPhy inst.attr with
        | false =>
          rw [himp] at hkind
          exact assigned hin ⟨inst, hi, .inl ⟨hl, by omega, hkind⟩⟩ hcp (by simp [emits, hin, hkind]) hcc
        | true =>
          rw [himp] at hkind
          have hns : ¬ P.Stored i := by
            rintro ⟨x, hx, _, hk'⟩; rw [hi] at hx; cases hx; rw [hkind] at hk'; simp at hk'
          exact silent (fun h => absurd h hns) (fun _ => hns) hcp (by simp [emits, hin, hkind]) hcc
    · obtain ⟨hkind, hin⟩ := hd.loc i inst hi hrn (by simpa using hl) hch
      refine assigned hin ⟨inst, hi, .inr (.inr ⟨hkind, hrn, ?_⟩)⟩ hcp (by simp [emits, hin, hkind]) hcc
      exact (hs.locals σ i inst hi hkind hrn).2 (by rw [hp]; simp)

/-- a conditional whose test can be evaluated -/
theorem run_ifs (hV : Valid ph prods) (hP : P ∈ prods) {f t : Cto} {σ : Nat → Bool} {l post : List Nat} {i : Nat} {inst : Inst V}
    {rule : Rule V} {st : Store V} {nv : Option V} (h : St J ph prods P kids a (.ifs i f t) σ l st nv) (hp : P.path σ = l ++ i :: post)
    (hpos : Pos ph P l i inst) (hr : inst.rule = some rule) (ct cf : Code V) :
    ∃ (τ : Nat → Bool) (nv' : Option V), (∀ q ∈ l, τ q = σ q) ∧ St J ph prods P kids a (if τ i = true then t else f) τ (l ++ [i]) st nv' ∧
      run P call a (condHead rule.test ct cf) nv st = run P call a (if τ i = true then ct else cf) nv' st := by
  have hs := hV.scheduled P hP
  have hd := hV.described P hP
  have hi := hpos.found
  obtain ⟨vs, hvs⟩ := reads_ok h.inv (hs.tests σ l i post hp inst rule hi hr)
  obtain ⟨b, hb⟩ : ∃ b, P.test a st rule.test = .ok b := by
    cases ht : rule.test with
    | ifs reads fn => rw [ht] at hvs; exact ⟨fn vs, by simp only [Prod.test, Test.reads] at hvs ⊢; rw [hvs]; rfl⟩
    | mat first e pat => rw [ht] at hvs; exact ⟨pat (e.fn vs), by simp only [Prod.test, Test.reads] at hvs ⊢; rw [hvs]; rfl⟩
  have hcase : ∀ e pat, rule.test = .mat false e pat → P.caseExpr l = some e := by
    intro e pat he
    exact hs.cases σ l i post hp inst e pat rule.ifTrue rule.ifFalse hi (by rw [hr, ← he])
  obtain ⟨nv', hnv', hrun⟩ := run_cond (call := call) hi hr h.node hcase hb ct cf
  have hl := hpos.notin
  let τ : Nat → Bool := fun q => if q = i then b else σ q
  have hτ : ∀ q ∈ l, τ q = σ q := by
    intro q hq
    show (if q = i then b else σ q) = σ q
    rw [if_neg fun (e : q = i) => hl (e ▸ hq)]
  have hτi : τ i = b := by show (if i = i then b else σ i) = b; rw [if_pos rfl]
  obtain ⟨_, hch⟩ := hd.rule i inst hi (by rw [hr]; rfl)
  refine ⟨τ, nv', hτ, ⟨?_, split_ifs hτ h.split, ?_, ?_, hnv', h.nodup, h.good⟩, by rw [hτi]; exact hrun⟩
  · cases τ i with
    | true => exact h.shaped.2.2
    | false => exact h.shaped.2.1
  · refine (h.inv.congr hτ).skip hi ?_ ?_ ?_
    · rintro ⟨x, hx, hxr, _⟩
      rw [hi] at hx; cases hx
      rw [hr] at hxr; cases hxr
    · rintro _ ⟨x, hx, hxr, _⟩
      rw [hi] at hx; cases hx
      rw [hr] at hxr; cases hxr
    · intro rule' hr'
      rw [hr] at hr'; cases hr'
      rw [hτi]; exact hb
  · intro c kid o hc ho
    rw [cp_snoc P c l hi, if_neg (by simp [hch])]
    exact h.kids c kid o hc ho

/-- running the code of a visit, from inside the part of the path that belongs to it -/
theorem walk (hV : Valid ph prods) (hP : P ∈ prods) (hJ : Adds J P a) (hcall : CallOk J ph prods P kids a call)
    (hkl : kids.length = P.kidPhy.length) (phase : Nat) :
    ∀ (fuel : Nat) (T : Cto) (σ : Nat → Bool) (l : List Nat) (st : Store V) (nv : Option V) (r : Code V × Bool),
      implement P phase fuel (P.cur l) T (P.asg σ l) (P.cps l) = .ok r → St J ph prods P kids a T σ l st nv →
      Mode P phase l T → InhReady ph P.lhsPhy a phase st →
      Fin J ph prods P kids a phase σ l st (run P call a r.1 nv st) := by
  intro fuel
  induction fuel using Nat.strong_induction_on with
  | _ fuel ih =>
    intro T σ l st nv r himp h hmode hinh
    have hs := hV.scheduled P hP
    have hd := hV.described P hP
    cases T with
    | nil =>
      have hr : r = (.done, false) := by
        cases fuel with
        | zero => simp only [implement] at himp; cases himp
        | succ f => simp only [implement] at himp; cases himp; rfl
      subst hr
      exact h.finish hV hP (cur_le_of_mode hmode) (.inl rfl)
    | node i next =>
      obtain ⟨hp, inst, hpos⟩ := h.pos hV hP (i := i) (post := next.path (fun i => some i) σ) rfl
      have hnr := h.shaped.1
      rcases step_node hd hpos hnr himp with ⟨h1, h2, h3, rfl⟩ | ⟨fuel', r', hf, hover, hr', rfl⟩
      · exact h.finish hV hP (cur_le_of_mode hmode) (.inr ⟨i, _, inst, rfl, hpos.found, h1, by omega⟩)
      · have hcur : P.cur (l ++ [i]) = phase := by
          rw [cur_snoc P l hpos.found]
          rcases hmode with hm | ⟨hm, hm'⟩
          · by_cases hl : inst.lhs = true
            · rw [if_pos hl]
              rcases (hpos.lhs hl).2 with hh | hh
              · omega
              · exact absurd ⟨hl, hh, hm⟩ hover
            · rw [if_neg hl]; exact hm
          · have hlhs : inst.lhs = true ∧ P.cur l < inst.ph.natAbs := by
              rcases hm' with ⟨h0, hall⟩ | ⟨j, nx, x, he, hx, hxl, hxp⟩
              · obtain ⟨x, hx, hxl⟩ := hs.starts σ l i _ hp hall hnr
                rw [hpos.found] at hx; cases hx
                have := (hpos.lhs hxl).1
                exact ⟨hxl, by omega⟩
              · cases he
                rw [hpos.found] at hx; cases hx
                exact ⟨hxl, hxp⟩
            rw [if_pos hlhs.1]
            have := (hpos.lhs hlhs.1).2
            omega
        obtain ⟨new, hterr, hst, hrun⟩ := run_node hV hP hJ hcall hkl h hp hpos hinh hcur r'.1
        have hasg : P.asg σ (l ++ [i]) = P.asg σ l := by
          apply asg_snoc_other P σ l hpos.found
          cases hru : inst.rule with
          | none => rfl
          | some x => exact absurd ⟨inst, hpos.found, by rw [hru]; rfl⟩ hnr
        have := ih fuel' hf next σ (l ++ [i]) (new ++ st) nv r' (by rw [hasg]; exact hr') hst (.inl hcur) hinh.mono
        simp only [if_pos hcur]
        rw [hrun]
        exact this.weaken (fun q hq => ⟨by simp [hq], rfl⟩) hterr
    | ifs i f t =>
      obtain ⟨hp, inst, hpos⟩ := h.pos hV hP (i := i) (post := _) rfl
      obtain ⟨x, hx, hxr⟩ := h.shaped.1
      rw [hpos.found] at hx; cases hx
      obtain ⟨rule, hr⟩ := Option.isSome_iff_exists.1 hxr
      obtain ⟨fuel', rt, rf, hf, hsub, rfl⟩ := step_ifs hd hpos hr himp
      obtain ⟨τ, nv', hτ, hst, hrun⟩ := run_ifs (call := call) hV hP h hp hpos hr rt.1 rf.1
      obtain ⟨hl, hch⟩ := hd.rule i inst hpos.found (by rw [hr]; rfl)
      have hcur : P.cur (l ++ [i]) = P.cur l := by rw [cur_snoc P l hpos.found, hl]; rfl
      have hm : Mode P phase (l ++ [i]) (if τ i = true then t else f) := by
        rcases hmode with hm | ⟨hm, ⟨h0, hall⟩ | ⟨j, nx, x, he, _⟩⟩
        · exact .inl (by rw [hcur]; exact hm)
        · refine .inr ⟨by rw [hcur]; exact hm, .inl ⟨by rw [hcur]; exact h0, ?_⟩⟩
          intro j hj
          rcases List.mem_append.1 hj with hj | hj
          · exact hall j hj
          · simp at hj; subst hj; exact h.shaped.1
        · cases he
      have := ih fuel' hf _ τ (l ++ [i]) st nv' _ (hsub τ hτ) hst hm hinh
      simp only [hrun]
      have hw := Fin.weaken (new := []) (σ := σ) (l := l) (st := st) this (fun q hq => ⟨by simp [hq], hτ q hq⟩) (by simp [keys])
      cases hb : τ i <;> simpa [hb] using hw

end Aps.Static
