import Verif.Proofs.StaticStep
set_option linter.unusedVariables false
/-!
# Static visit procedures: running the code of one visit
-/
namespace Aps.Static

open Aps.Oag

variable {V : Type} {ph : Phyla} {P : Prod V} {J : Store V → Prop}

/-- the variable `node` holds the value of the last case expression -/
def NV (P : Prod V) (a : Addr) (l : List Nat) (st : Store V) (nv : Option V) : Prop :=
  ∀ e, P.caseExpr l = some e → ∃ vs, readAll P a st e.reads = .ok vs ∧ nv = some (e.fn vs)

theorem NV.frame {a : Addr} {l : List Nat} {st new : Store V} {nv : Option V} (h : NV P a l st nv)
    (hn : ∀ s ∈ keys new, s ∉ keys st) : NV P a l (new ++ st) nv := by
  intro e he
  obtain ⟨vs, h1, h2⟩ := h e he
  exact ⟨vs, readAll_frame hn h1, h2⟩

theorem NV.other {a : Addr} {l : List Nat} {st : Store V} {nv : Option V} (h : NV P a l st nv) {i : Nat} {inst : Inst V}
    (hi : P.insts[i]? = some inst) (hr : inst.rule = none) : NV P a (l ++ [i]) st nv := by
  intro e he
  rw [caseExpr_snoc] at he
  have : P.caseExpr [i] = none := by simp [Prod.caseExpr, hi, hr]
  rw [this] at he
  exact h e he

/-- running a conditional whose outcome is known -/
theorem run_cond {call : Nat → Nat → Store V → Res (Store V)} {a : Addr} {l : List Nat} {st : Store V} {nv : Option V} {i : Nat}
    {inst : Inst V} {rule : Rule V} (hi : P.insts[i]? = some inst) (hr : inst.rule = some rule) (hnv : NV P a l st nv)
    (hcase : ∀ e pat, rule.test = .mat false e pat → P.caseExpr l = some e) {b : Bool} (hb : P.test a st rule.test = .ok b)
    (ct cf : Code V) :
    ∃ nv', NV P a (l ++ [i]) st nv' ∧
      run P call a (condHead rule.test ct cf) nv st = run P call a (if b = true then ct else cf) nv' st := by
  obtain ⟨test, bt, bf⟩ := rule
  simp only at hcase hb ⊢
  cases test with
  | ifs reads fn =>
    refine ⟨nv, ?_, ?_⟩
    · intro e he
      rw [caseExpr_snoc] at he
      have : P.caseExpr [i] = none := by simp [Prod.caseExpr, hi, hr]
      rw [this] at he
      exact hnv e he
    · obtain ⟨vs, h1, h2⟩ := Res.bind_eq_ok.1 hb
      simp only [Res.pure_eq] at h2
      have h2 : fn vs = b := by cases h2; rfl
      simp only [condHead, run, h1, Res.ok_bind, h2]
      cases b <;> rfl
  | mat first e pat =>
    obtain ⟨vs, h1, h2⟩ := Res.bind_eq_ok.1 hb
    simp only [Res.pure_eq] at h2
    have h2 : pat (e.fn vs) = b := by cases h2; rfl
    cases first with
    | true =>
      refine ⟨some (e.fn vs), ?_, ?_⟩
      · intro e' he
        rw [caseExpr_snoc] at he
        have : P.caseExpr [i] = some e := by simp [Prod.caseExpr, hi, hr]
        rw [this] at he
        cases he
        exact ⟨vs, h1, rfl⟩
      · simp only [condHead, run, h1, Res.ok_bind, h2]
        cases b <;> rfl
    | false =>
      obtain ⟨vs', h3, h4⟩ := hnv e (hcase e pat rfl)
      rw [h1] at h3; cases h3
      refine ⟨nv, ?_, ?_⟩
      · intro e he
        rw [caseExpr_snoc] at he
        have : P.caseExpr [i] = none := by simp [Prod.caseExpr, hi, hr]
        rw [this] at he
        exact hnv e he
      · subst h4
        simp only [condHead, run, h2]
        cases b <;> rfl

/-- `J` is kept when an instance of production `P` at `a` gets its value -/
def Adds (J : Store V → Prop) (P : Prod V) (a : Addr) : Prop :=
  ∀ (st : Store V) (σ : Nat → Bool) (pre : List Nat) (i : Nat) (post : List Nat) (inst : Inst V) (e : Expr V) (vs : List V), J st →
    P.path σ = pre ++ i :: post → P.insts[i]? = some inst → inst.rule = none → P.Output σ i →
    (∀ r ∈ pre, ∀ (x : Inst V) (rule : Rule V), P.insts[r]? = some x → x.rule = some rule → P.test a st rule.test = .ok (σ r)) →
    P.rhs σ i = some e → readAll P a st e.reads = .ok vs → J ((inst.slot a, e.fn vs) :: st)

/-- what a visit of a child does -/
def CallOk (J : Store V → Prop) (ph : Phyla) (prods : List (Prod V)) (P : Prod V) (kids : List Tree) (a : Addr)
    (call : Nat → Nat → Store V → Res (Store V)) : Prop :=
  ∀ (c : Nat) (kid : Tree) (kp m : Nat) (st : Store V), kids[c]? = some kid → P.kidPhy[c]? = some (some kp) →
    Sub ph prods st (some kp) kid (c :: a) m → m + 1 ≤ ph.visits kp → InhReady ph kp (c :: a) (m + 1) st → (keys st).Nodup → J st →
    ∃ new, J (new ++ st) ∧ call c (m + 1) st = .ok (new ++ st) ∧ (keys (new ++ st)).Nodup ∧ (∀ s ∈ keys new, Terr ph (some kp) (c :: a) s) ∧
      Sub ph prods (new ++ st) (some kp) kid (c :: a) (m + 1)

/-- the children after the instances `l` -/
def KidsOk (ph : Phyla) (prods : List (Prod V)) (P : Prod V) (kids : List Tree) (a : Addr) (l : List Nat) (st : Store V) : Prop :=
  ∀ (c : Nat) (kid : Tree) (o : Option Nat), kids[c]? = some kid → P.kidPhy[c]? = some o → Sub ph prods st o kid (c :: a) (P.cp c l)

/-- the state between two instances of a path -/
structure St (J : Store V → Prop) (ph : Phyla) (prods : List (Prod V)) (P : Prod V) (kids : List Tree) (a : Addr) (T : Cto) (σ : Nat → Bool)
    (l : List Nat) (st : Store V) (nv : Option V) : Prop where
  shaped : P.Shaped T
  split : ∀ τ : Nat → Bool, (∀ r ∈ l, τ r = σ r) → P.path τ = l ++ T.path (fun i => some i) τ
  inv : NInv P a σ l st
  kids : KidsOk ph prods P kids a l st
  node : NV P a l st nv
  nodup : (keys st).Nodup
  good : J st

/-- the state after a visit -/
def Fin (J : Store V → Prop) (ph : Phyla) (prods : List (Prod V)) (P : Prod V) (kids : List Tree) (a : Addr) (phase : Nat) (σ : Nat → Bool)
    (l : List Nat) (st : Store V) (r : Res (Store V)) : Prop :=
  ∃ (new : Store V) (τ : Nat → Bool), J (new ++ st) ∧ r = .ok (new ++ st) ∧ (keys (new ++ st)).Nodup ∧
    (∀ s ∈ keys new, Terr ph (some P.lhsPhy) a s) ∧ (∀ q ∈ l, τ q = σ q) ∧
    NInv P a τ (P.upto phase (P.path τ)) (new ++ st) ∧ KidsOk ph prods P kids a (P.upto phase (P.path τ)) (new ++ st)

theorem Fin.weaken {prods : List (Prod V)} {kids : List Tree} {a : Addr} {phase : Nat} {σ σ' : Nat → Bool} {l l' : List Nat}
    {st new : Store V} {r : Res (Store V)} (h : Fin J ph prods P kids a phase σ' l' (new ++ st) r)
    (hl : ∀ q ∈ l, q ∈ l' ∧ σ' q = σ q) (hn : ∀ s ∈ keys new, Terr ph (some P.lhsPhy) a s) :
    Fin J ph prods P kids a phase σ l st r := by
  obtain ⟨new', τ, h0, h1, h2, h3, h4, h5, h6⟩ := h
  refine ⟨new' ++ new, τ, by simpa using h0, ?_, ?_, ?_, ?_, ?_, ?_⟩
  · rw [h1]; simp
  · simpa using h2
  · intro s hs
    rw [keys_append] at hs
    rcases List.mem_append.1 hs with hs | hs
    · exact h3 s hs
    · exact hn s hs
  · intro q hq; rw [h4 q (hl q hq).1, (hl q hq).2]
  · simpa using h5
  · simpa using h6

theorem nodup_new {new st : Store V} (h : (keys (new ++ st)).Nodup) : ∀ s ∈ keys new, s ∉ keys st := by
  rw [keys_append] at h
  intro s hs hs'
  exact (List.nodup_append.1 h).2.2 s hs s hs' rfl

theorem St.pos {prods : List (Prod V)} (hV : Valid ph prods) (hP : P ∈ prods) {kids : List Tree} {a : Addr} {T : Cto}
    {σ : Nat → Bool} {l : List Nat} {st : Store V} {nv : Option V} (h : St J ph prods P kids a T σ l st nv) {i : Nat} {post : List Nat}
    (hT : T.path (fun i => some i) σ = i :: post) : P.path σ = l ++ i :: post ∧ ∃ inst, Pos ph P l i inst := by
  have := h.split σ fun _ _ => rfl
  rw [hT] at this
  exact ⟨this, pos_of_path hV.phased (hV.described P hP) (hV.scheduled P hP) this⟩

theorem St.finish {prods : List (Prod V)} (hV : Valid ph prods) (hP : P ∈ prods) {kids : List Tree} {a : Addr} {T : Cto}
    {σ : Nat → Bool} {l : List Nat} {st : Store V} {nv : Option V} {phase : Nat} (h : St J ph prods P kids a T σ l st nv)
    (hcur : P.cur l ≤ phase)
    (hT : T.path (fun i => some i) σ = [] ∨ ∃ i post inst, T.path (fun i => some i) σ = i :: post ∧ P.insts[i]? = some inst ∧
      inst.lhs = true ∧ phase < inst.ph.natAbs) : Fin J ph prods P kids a phase σ l st (.ok st) := by
  have hs := hV.scheduled P hP
  have hsp := h.split σ fun _ _ => rfl
  have hsort := hs.phases σ
  have hknown := hs.known σ
  rw [hsp] at hsort hknown
  have hl : P.upto phase (P.path σ) = l := by
    rw [hsp]
    refine upto_eq P phase l _ ?_ hT
    intro i hi inst hin hlhs
    have := cur_max P l (List.pairwise_append.1 hsort).1 (fun j hj => hknown j (by simp [hj])) hi hin hlhs
    omega
  refine ⟨[], σ, h.good, rfl, h.nodup, by simp [keys], fun _ _ => rfl, ?_, ?_⟩
  · rw [hl]; exact h.inv
  · rw [hl]; exact h.kids

theorem reads_ok {a : Addr} {σ : Nat → Bool} {l : List Nat} {st : Store V} (h : NInv P a σ l st) {js : List Nat}
    (hj : ∀ j ∈ js, j ∈ l ∧ P.Stored j) : ∃ vs, readAll P a st js = .ok vs := by
  apply readAll_ok
  intro j hjm
  obtain ⟨h1, h2⟩ := hj j hjm
  have h3 := h2
  obtain ⟨inst, hi, _⟩ := h3
  exact ⟨inst, hi, h.stored j h1 inst hi h2⟩

theorem split_node {l : List Nat} {i : Nat} {next : Cto} {σ : Nat → Bool}
    (h : ∀ τ : Nat → Bool, (∀ r ∈ l, τ r = σ r) → P.path τ = l ++ (Cto.node i next).path (fun i => some i) τ) :
    ∀ τ : Nat → Bool, (∀ r ∈ l ++ [i], τ r = σ r) → P.path τ = (l ++ [i]) ++ next.path (fun i => some i) τ := by
  intro τ hτ
  rw [h τ fun r hr => hτ r (by simp [hr])]
  simp [Cto.path]

theorem split_ifs {l : List Nat} {i : Nat} {f t : Cto} {σ τ : Nat → Bool} (hτ : ∀ r ∈ l, τ r = σ r)
    (h : ∀ τ : Nat → Bool, (∀ r ∈ l, τ r = σ r) → P.path τ = l ++ (Cto.ifs i f t).path (fun i => some i) τ) :
    ∀ υ : Nat → Bool, (∀ r ∈ l ++ [i], υ r = τ r) → P.path υ = (l ++ [i]) ++ (if τ i = true then t else f).path (fun i => some i) υ := by
  intro υ hυ
  rw [h υ fun r hr => (hυ r (by simp [hr])).trans (hτ r hr)]
  have : υ i = τ i := hυ i (by simp)
  simp only [Cto.path, Option.map_some, Option.some.injEq, this]
  cases τ i <;> simp

/-- everything for a visit of this child has been assigned -/
theorem inh_ready {prods : List (Prod V)} (hV : Valid ph prods) (hP : P ∈ prods) {a : Addr} {σ : Nat → Bool} {l post : List Nat} {i c : Nat}
    {inst : Inst V} {st : Store V} (hp : P.path σ = l ++ i :: post) (hpos : Pos ph P l i inst) (hinv : NInv P a σ l st)
    (hc : inst.ch = some c) (h0 : 0 < inst.ph) {kp : Nat} (hk : P.kidPhy[c]? = some (some kp)) :
    InhReady ph kp (c :: a) inst.ph.natAbs st := by
  have hs := hV.scheduled P hP
  have hd := hV.described P hP
  intro x s hx hneg hle himp
  obtain ⟨j, hj, b, hb, hbc, rfl⟩ := hs.ch σ c kp x s hk hx
  obtain ⟨kp', hk', hsc, hkind, _⟩ := hd.ch j b c hb hbc
  rw [hk] at hk'; cases hk'
  rw [hx] at hsc
  have hbph : b.ph = s := (Option.some.inj hsc).symm
  have hjl : j ∈ l := by
    rw [hp] at hj
    rcases List.mem_append.1 hj with h | h
    · exact h
    · exfalso
      rcases List.mem_cons.1 h with rfl | h
      · rw [hpos.found] at hb; cases hb; omega
      · have hsort := hs.phases σ
        rw [hp] at hsort
        have := (List.pairwise_cons.1 (List.pairwise_append.1 hsort).2.1).1 j h inst b hpos.found hb (.inr ⟨by simp [hc], hc.trans hbc.symm⟩)
        unfold place at this
        rw [if_neg (by omega), if_pos (by omega)] at this
        omega
  have := hinv.stored j hjl b hb ⟨b, hb, rule_none_of_ch hd hb hbc, .inl (by rw [hkind, himp])⟩
  unfold Inst.slot at this
  rw [hbc] at this
  exact this

variable {prods : List (Prod V)} {kids : List Tree} {a : Addr} {call : Nat → Nat → Store V → Res (Store V)}

/-- an assignment is printed and run -/
theorem step_assign (hV : Valid ph prods) (hP : P ∈ prods) (hJ : Adds J P a) {next : Cto} {σ : Nat → Bool} {l post : List Nat} {i : Nat} {inst : Inst V}
    {st : Store V} {nv : Option V} (h : St J ph prods P kids a (.node i next) σ l st nv) (hp : P.path σ = l ++ i :: post)
    (hpos : Pos ph P l i inst) (hrn : inst.rule = none) (hin : inst.inward = false) (hout : P.Output σ i)
    (hcp : ∀ c, P.cp c (l ++ [i]) = P.cp c l) :
    ∃ e vs, (P.asg σ l)[i]?.getD none = some e ∧ readAll P a st e.reads = .ok vs ∧
      St J ph prods P kids a next σ (l ++ [i]) ([(inst.slot a, e.fn vs)] ++ st) nv ∧
      Terr ph (some P.lhsPhy) a (inst.slot a) := by
  have hs := hV.scheduled P hP
  have hd := hV.described P hP
  have hnr : ¬ P.IsRule i := by
    rintro ⟨x, hx, hr⟩; rw [hpos.found] at hx; cases hx; rw [hrn] at hr; cases hr
  have hasg := asg_eq_rhs hd hs hp hnr
  obtain ⟨e, he⟩ : ∃ e, P.rhs σ i = some e := Option.ne_none_iff_exists'.1 (hs.defined σ i hout)
  obtain ⟨vs, hvs⟩ := reads_ok h.inv (hs.reads σ l i post hp e he)
  have hfr := h.inv.fresh i inst hpos.found hpos.notin hrn hin
  have hnd : (keys ([(inst.slot a, e.fn vs)] ++ st)).Nodup := by
    show (inst.slot a :: keys st).Nodup
    exact List.nodup_cons.2 ⟨hfr, h.nodup⟩
  have hn := nodup_new hnd
  refine ⟨e, vs, by rw [hasg, he], hvs, ⟨h.shaped.2, split_node h.split, ?_, ?_, ?_, hnd, hJ st σ l i post inst e vs h.good hp hpos.found hrn hout h.inv.tests he hvs⟩, own_terr hV.phased hd hpos.found hrn hin a⟩
  · exact h.inv.assign hd hpos.found hpos.notin hrn hin (by rw [hasg, he]) hvs
  · intro c kid o hc ho
    rw [hcp c]
    refine (h.kids c kid o hc ho).frame hV hn ?_
    intro s hs'
    simp [keys] at hs'
    subst hs'
    exact own_not_kid hV.phased hd hpos.found hrn hin a ho
  · exact (h.node.frame hn).other hpos.found hrn

/-- nothing is printed -/
theorem step_skip (hV : Valid ph prods) (hP : P ∈ prods) {next : Cto} {σ : Nat → Bool} {l : List Nat} {i : Nat} {inst : Inst V}
    {st : Store V} {nv : Option V} (h : St J ph prods P kids a (.node i next) σ l st nv)
    (hi : P.insts[i]? = some inst) (hrn : inst.rule = none) (hst : P.Stored i → inst.slot a ∈ keys st)
    (hout : inst.inward = false → ¬ P.Stored i) (hcp : ∀ c, P.cp c (l ++ [i]) = P.cp c l) :
    St J ph prods P kids a next σ (l ++ [i]) st nv := by
  refine ⟨h.shaped.2, split_node h.split, ?_, ?_, h.node.other hi hrn, h.nodup, h.good⟩
  · exact h.inv.skip hi hst hout fun rule hr => by rw [hrn] at hr; cases hr
  · intro c kid o hc ho
    rw [hcp c]; exact h.kids c kid o hc ho

end Aps.Static
