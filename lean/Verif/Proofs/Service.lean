import Verif.Spec.Service
import Mathlib.Tactic.Common
import Mathlib.Data.List.Nodup
import Mathlib.Logic.Relation
/-! # Proofs about service transfers -/
namespace Aps.Service
open Aps.Bind (Kind)

/-- The bit of the namespace that a member belongs to. -/
def bitOf : Pre → Nat
  | .p => 2
  | .v => 3
  | .T | .t => 1

theorem bit_of_defines {k : Kind} {m : Pre} (h : m ∈ Defines k) : (Bind.namespaces k).testBit (bitOf m) = true := by
  cases k <;> simp [Defines] at h <;> (try rcases h with h | h) <;> (try subst h) <;> decide

theorem defines_of_bit {k : Kind} {m : Pre} (h : (Bind.namespaces k).testBit (bitOf m) = true) : m ∈ Defines k := by
  revert h; cases k <;> cases m <;> decide

theorem lines_pre {n src : String} {k : Kind} {l : Line} (h : l ∈ lines n src k) :
    l.pre ∈ Defines k ∧ l.name = n ∧ l.src = src ∧ Transferred k := by
  cases k <;> simp [lines] at h <;> (first | subst h | rcases h with rfl | rfl) <;> simp [Defines, Transferred]

theorem lines_of_defines {n src : String} {k : Kind} {m : Pre} (hk : Transferred k) (h : m ∈ Defines k) :
    (⟨m, n, src⟩ : Line) ∈ lines n src k := by
  cases k <;> simp [Transferred] at hk <;> simp [Defines] at h <;> (first | subst h | rcases h with rfl | rfl) <;> simp [lines]

theorem lines_nodup (n src : String) (k : Kind) : ((lines n src k).map fun l => (l.pre, l.name)).Nodup := by
  cases k <;> simp [lines]

/-- One round on the record and the output. -/
def stepC (P : Prog) (s : (String → Nat) × List Line) (x : String × Decl) : (String → Nat) × List Line :=
  if missing s.1 x.2 = 0 then s
  else (addRec s.1 x.2, s.2 ++ lines (P.code x.2.name) x.1 x.2.kind)

def core (st : St) : (String → Nat) × List Line := (st.rec_, st.out)

theorem core_step (P : Prog) (src : String) (st : St) (d : Decl) :
    core (step P src st d) = stepC P (core st) (src, d) := by
  unfold step stepC core; simp only
  split <;> rfl

theorem core_foldl (P : Prog) (src : String) (ds : List Decl) : ∀ st, core (ds.foldl (step P src) st) =
    (ds.map fun d => (src, d)).foldl (stepC P) (core st) := by
  induction ds with
  | nil => intro st; rfl
  | cons d ds ih => intro st; simp only [List.foldl_cons, List.map_cons]; rw [ih, core_step]

@[simp] theorem core_err (st : St) : core (err st) = core st := rfl

/-- `Offers` as the search goes: not through the result type of a module called `TYPE`. -/
inductive Finds (P : Prog) : Job → Decl → Prop where
  | own {c C d} : P.cls c = some C → d ∈ C.contents → Finds P (.cls c) d
  | parent {c C d} : P.cls c = some C → Finds P (.sig C.parent) d → Finds P (.cls c) d
  | result {c C d} : P.cls c = some C → C.isModule = true → C.name ≠ "TYPE" →
      Finds P (.ty C.resultIsPhylum C.result) d → Finds P (.cls c) d
  | sigDecl {s t d} : P.sig s = .decl t → Finds P (.sig t) d → Finds P (.sig (.use s)) d
  | sigRenaming {s t d} : P.sig s = .renaming t → Finds P (.sig t) d → Finds P (.sig (.use s)) d
  | left {s t d} : Finds P (.sig s) d → Finds P (.sig (.mult s t)) d
  | right {s t d} : Finds P (.sig t) d → Finds P (.sig (.mult s t)) d
  | sigInst {c d} : Finds P (.cls c) d → Finds P (.sig (.inst c)) d
  | plainType {c d} : findBasic P "TYPE" = some c → Finds P (.cls c) d → Finds P (.ty false .noType) d
  | plainPhylum {c d} : findBasic P "PHYLUM" = some c → Finds P (.cls c) d → Finds P (.ty true .noType) d
  | remote {b t d} : Finds P (.ty true t) d → Finds P (.ty b (.remote t)) d
  | priv {b t d} : Finds P (.ty b t) d → Finds P (.ty b (.priv t)) d
  | inst {b m d} : Finds P (.cls m) d → Finds P (.ty b (.inst m)) d
  | typeDecl {b u t d} : P.tdef u = .typeDecl t → Finds P (.ty false t) d → Finds P (.ty b (.use u)) d
  | phylumDecl {b u t d} : P.tdef u = .phylumDecl t → Finds P (.ty true t) d → Finds P (.ty b (.use u)) d
  | typeFormal {b u s d} : P.tdef u = .typeFormal s → Finds P (.sig s) d → Finds P (.ty b (.use u)) d
  | phylumFormal {b u s d} : P.tdef u = .phylumFormal s → Finds P (.sig s) d → Finds P (.ty b (.use u)) d
  | typeRenaming {b u t d} : P.tdef u = .renaming t → Finds P (.ty b t) d → Finds P (.ty b (.use u)) d

theorem offers_of_finds {P : Prog} {j : Job} {d : Decl} (h : Finds P j d) : Offers P j d := by
  induction h with
  | own h1 h2 => exact .own h1 h2
  | parent h1 _ ih => exact .parent h1 ih
  | result h1 h2 _ _ ih => exact .result h1 h2 ih
  | sigDecl h1 _ ih => exact .sigDecl h1 ih
  | sigRenaming h1 _ ih => exact .sigRenaming h1 ih
  | left _ ih => exact .left ih
  | right _ ih => exact .right ih
  | sigInst _ ih => exact .sigInst ih
  | plainType h1 _ ih => exact .plainType h1 ih
  | plainPhylum h1 _ ih => exact .plainPhylum h1 ih
  | remote _ ih => exact .remote ih
  | priv _ ih => exact .priv ih
  | inst _ ih => exact .inst ih
  | typeDecl h1 _ ih => exact .typeDecl h1 ih
  | phylumDecl h1 _ ih => exact .phylumDecl h1 ih
  | typeFormal h1 _ ih => exact .typeFormal h1 ih
  | phylumFormal h1 _ ih => exact .phylumFormal h1 ih
  | typeRenaming h1 _ ih => exact .typeRenaming h1 ih

theorem finds_of_offers {P : Prog} (hT : TypeOk P) {j : Job} {d : Decl} (h : Offers P j d) : Finds P j d := by
  induction h with
  | own h1 h2 => exact .own h1 h2
  | parent h1 _ ih => exact .parent h1 ih
  | @result c C d h1 h2 h3 ih =>
    by_cases hn : C.name = "TYPE"
    · obtain ⟨hb, m, M, hr, hm, _, hc, _, hp, hres, hs⟩ := hT.type c C h1 h2 hn
      rw [hr] at ih
      have inv : ∀ b, Finds P (.ty b (.inst m)) d → Finds P (.cls m) d := by
        intro b h; cases h; assumption
      cases inv _ ih with
      | own g1 g2 => rw [hm] at g1; cases g1; rw [hc] at g2; cases g2
      | parent g1 g2 => rw [hm] at g1; cases g1; exact absurd (offers_of_finds g2) (hs _)
      | result g1 _ _ g4 =>
        rw [hm] at g1; cases g1; rw [hp, hres] at g4
        cases g4 with
        | plainType e1 e2 => rw [hb] at e1; cases e1; exact e2
    · exact .result h1 h2 hn ih
  | sigDecl h1 _ ih => exact .sigDecl h1 ih
  | sigRenaming h1 _ ih => exact .sigRenaming h1 ih
  | left _ ih => exact .left ih
  | right _ ih => exact .right ih
  | sigInst _ ih => exact .sigInst ih
  | plainType h1 _ ih => exact .plainType h1 ih
  | plainPhylum h1 _ ih => exact .plainPhylum h1 ih
  | remote _ ih => exact .remote ih
  | priv _ ih => exact .priv ih
  | inst _ ih => exact .inst ih
  | typeDecl h1 _ ih => exact .typeDecl h1 ih
  | phylumDecl h1 _ ih => exact .phylumDecl h1 ih
  | typeFormal h1 _ ih => exact .typeFormal h1 ih
  | phylumFormal h1 _ ih => exact .phylumFormal h1 ih
  | typeRenaming h1 _ ih => exact .typeRenaming h1 ih

/-- What a run has done: it has looked at the declarations `L`, which are those found, in some order. -/
structure Ran (P : Prog) (j : Job) (src : String) (st st' : St) (L : List (String × Decl)) : Prop where
  only : ∀ x ∈ L, Finds P j x.2
  all : ∀ d, Finds P j d → ∃ x ∈ L, x.2 = d
  srcs : ∀ x ∈ L, x.1 = src ∨ ∃ v, Names P j v ∧ x.1 = "t_" ++ P.tname v
  core : core st' = L.foldl (stepC P) (core st)

theorem Ran.sub {P : Prog} {j j' : Job} {src : String} {st st' : St} {L} (h : Ran P j' src st st' L)
    (h1 : ∀ d, Finds P j' d → Finds P j d) (h2 : ∀ d, Finds P j d → Finds P j' d)
    (h3 : ∀ v, Names P j' v → Names P j v) : Ran P j src st st' L :=
  ⟨fun x hx => h1 _ (h.only x hx), fun d hd => h.all d (h2 d hd),
    fun x hx => (h.srcs x hx).imp id fun ⟨v, hv, e⟩ => ⟨v, h3 v hv, e⟩, h.core⟩

theorem Ran.use {P : Prog} {b : Bool} {u : Nat} {j' : Job} {src : String} {st st' : St} {L}
    (h : Ran P j' ("t_" ++ P.tname u) st st' L)
    (h1 : ∀ d, Finds P j' d → Finds P (.ty b (.use u)) d) (h2 : ∀ d, Finds P (.ty b (.use u)) d → Finds P j' d)
    (h3 : ∀ v, Names P j' v → Names P (.ty b (.use u)) v) : Ran P (.ty b (.use u)) src st st' L :=
  ⟨fun x hx => h1 _ (h.only x hx), fun d hd => h.all d (h2 d hd),
    fun x hx => .inr ((h.srcs x hx).elim (fun e => ⟨u, .self, e⟩) fun ⟨v, hv, e⟩ => ⟨v, h3 v hv, e⟩), h.core⟩

theorem Ran.nil {P : Prog} {j : Job} {src : String} {st st' : St} (h : ∀ d, ¬ Finds P j d) (hc : Service.core st' = Service.core st) :
    Ran P j src st st' [] :=
  ⟨fun x hx => (by cases hx), fun d hd => absurd hd (h d), fun x hx => (by cases hx), hc⟩

theorem go_ran (P : Prog) : ∀ fuel j src st st', go P fuel j src st = .ok st' → ∃ L, Ran P j src st st' L := by
  intro fuel
  induction fuel with
  | zero => intro j src st st' h; simp [go] at h
  | succ fuel ih =>
    intro j src st st' h
    match j with
    | .cls c =>
      simp only [go] at h
      cases hC : P.cls c with
      | none => rw [hC] at h; cases h
      | some C =>
        rw [hC] at h
        obtain ⟨s1, g1, h⟩ := Res.bind_eq_ok.1 h
        obtain ⟨s2, g2, h⟩ := Res.bind_eq_ok.1 h
        cases h
        obtain ⟨L1, r1⟩ := ih _ _ _ _ g1
        by_cases hm : C.isModule = true ∧ C.name ≠ "TYPE"
        · rw [if_pos hm] at g2
          obtain ⟨L2, r2⟩ := ih _ _ _ _ g2
          refine ⟨L1 ++ (L2 ++ C.contents.map fun d => (src, d)), ?_, ?_, ?_, ?_⟩
          · intro x hx
            rcases List.mem_append.1 hx with hx | hx
            · exact .parent hC (r1.only x hx)
            rcases List.mem_append.1 hx with hx | hx
            · exact .result hC hm.1 hm.2 (r2.only x hx)
            · obtain ⟨d, hd, rfl⟩ := List.mem_map.1 hx; exact .own hC hd
          · intro d hd
            cases hd with
            | own e1 e2 =>
              rw [hC] at e1; cases e1
              exact ⟨(src, d), by simp [e2], rfl⟩
            | parent e1 e2 =>
              rw [hC] at e1; cases e1
              obtain ⟨x, hx, e⟩ := r1.all d e2; exact ⟨x, by simp [hx], e⟩
            | result e1 _ _ e2 =>
              rw [hC] at e1; cases e1
              obtain ⟨x, hx, e⟩ := r2.all d e2; exact ⟨x, by simp [hx], e⟩
          · intro x hx
            rcases List.mem_append.1 hx with hx | hx
            · exact (r1.srcs x hx).imp id fun ⟨v, hv, e⟩ => ⟨v, .parent hC hv, e⟩
            rcases List.mem_append.1 hx with hx | hx
            · exact (r2.srcs x hx).imp id fun ⟨v, hv, e⟩ => ⟨v, .result hC hm.1 hv, e⟩
            · obtain ⟨d, hd, rfl⟩ := List.mem_map.1 hx; exact .inl rfl
          · rw [core_foldl, r2.core, r1.core, List.foldl_append, List.foldl_append]
        · rw [if_neg hm] at g2; cases g2
          refine ⟨L1 ++ (C.contents.map fun d => (src, d)), ?_, ?_, ?_, ?_⟩
          · intro x hx
            rcases List.mem_append.1 hx with hx | hx
            · exact .parent hC (r1.only x hx)
            · obtain ⟨d, hd, rfl⟩ := List.mem_map.1 hx; exact .own hC hd
          · intro d hd
            cases hd with
            | own e1 e2 =>
              rw [hC] at e1; cases e1
              exact ⟨(src, d), by simp [e2], rfl⟩
            | parent e1 e2 =>
              rw [hC] at e1; cases e1
              obtain ⟨x, hx, e⟩ := r1.all d e2; exact ⟨x, by simp [hx], e⟩
            | result e1 e3 e4 e2 =>
              rw [hC] at e1; cases e1
              exact absurd ⟨e3, e4⟩ hm
          · intro x hx
            rcases List.mem_append.1 hx with hx | hx
            · exact (r1.srcs x hx).imp id fun ⟨v, hv, e⟩ => ⟨v, .parent hC hv, e⟩
            · obtain ⟨d, hd, rfl⟩ := List.mem_map.1 hx; exact .inl rfl
          · rw [core_foldl, r1.core, List.foldl_append]
    | .sig .none =>
      simp only [go] at h; cases h
      exact ⟨[], .nil (fun d hd => by cases hd) rfl⟩
    | .sig (.use d) =>
      simp only [go] at h
      cases hs : P.sig d with
      | decl s =>
        rw [hs] at h
        obtain ⟨L, r⟩ := ih _ _ _ _ h
        exact ⟨L, r.sub (fun _ => .sigDecl hs) (fun d hd => by cases hd <;> simp_all) fun _ => .sigDecl hs⟩
      | «renaming» s =>
        rw [hs] at h
        obtain ⟨s1, g, h⟩ := Res.bind_eq_ok.1 h
        cases h
        obtain ⟨L, r⟩ := ih _ _ _ _ g
        have := r.sub (j := .sig (.use d)) (fun _ => .sigRenaming hs) (fun d hd => by cases hd <;> simp_all)
          fun _ => .sigRenaming hs
        exact ⟨L, this.only, this.all, this.srcs, by rw [core_err]; exact this.core⟩
      | other =>
        rw [hs] at h; cases h
        exact ⟨[], .nil (fun d hd => by cases hd <;> simp_all) rfl⟩
    | .sig .fixed =>
      simp only [go] at h; cases h
      exact ⟨[], .nil (fun d hd => by cases hd) rfl⟩
    | .sig (.mult s1 s2) =>
      simp only [go] at h
      obtain ⟨st1, g1, g2⟩ := Res.bind_eq_ok.1 h
      obtain ⟨L1, r1⟩ := ih _ _ _ _ g1
      obtain ⟨L2, r2⟩ := ih _ _ _ _ g2
      refine ⟨L1 ++ L2, ?_, ?_, ?_, ?_⟩
      · intro x hx
        rcases List.mem_append.1 hx with hx | hx
        · exact .left (r1.only x hx)
        · exact .right (r2.only x hx)
      · intro d hd
        cases hd with
        | left e => obtain ⟨x, hx, e⟩ := r1.all d e; exact ⟨x, by simp [hx], e⟩
        | right e => obtain ⟨x, hx, e⟩ := r2.all d e; exact ⟨x, by simp [hx], e⟩
      · intro x hx
        rcases List.mem_append.1 hx with hx | hx
        · exact (r1.srcs x hx).imp id fun ⟨v, hv, e⟩ => ⟨v, .left hv, e⟩
        · exact (r2.srcs x hx).imp id fun ⟨v, hv, e⟩ => ⟨v, .right hv, e⟩
      · rw [r2.core, r1.core, List.foldl_append]
    | .sig (.inst c) =>
      simp only [go] at h
      obtain ⟨L, r⟩ := ih _ _ _ _ h
      exact ⟨L, r.sub (fun _ => .sigInst) (fun d hd => by cases hd; assumption) fun _ => .sigInst⟩
    | .ty ph .noType =>
      simp only [go] at h
      cases hb : findBasic P (if ph = true then "PHYLUM" else "TYPE") with
      | none => rw [hb] at h; cases h
      | some c =>
        rw [hb] at h
        obtain ⟨L, r⟩ := ih _ _ _ _ h
        refine ⟨L, r.sub (fun d hd => ?_) (fun d hd => ?_) fun _ => .plain hb⟩
        · cases ph
          · exact .plainType hb hd
          · exact .plainPhylum hb hd
        · cases hd <;> simp_all
    | .ty _ (.remote t) =>
      simp only [go] at h
      obtain ⟨L, r⟩ := ih _ _ _ _ h
      exact ⟨L, r.sub (fun _ => .remote) (fun d hd => by cases hd; assumption) fun _ => .remote⟩
    | .ty ph (.priv t) =>
      simp only [go] at h
      obtain ⟨L, r⟩ := ih _ _ _ _ h
      exact ⟨L, r.sub (fun _ => .priv) (fun d hd => by cases hd; assumption) fun _ => .priv⟩
    | .ty _ .func =>
      simp only [go] at h; cases h
      exact ⟨[], .nil (fun d hd => by cases hd) rfl⟩
    | .ty _ (.inst m) =>
      simp only [go] at h
      obtain ⟨L, r⟩ := ih _ _ _ _ h
      exact ⟨L, r.sub (fun _ => .inst) (fun d hd => by cases hd; assumption) fun _ => .inst⟩
    | .ty ph (.use u) =>
      simp only [go] at h
      cases hu : P.tdef u with
      | typeDecl t =>
        rw [hu] at h
        obtain ⟨L, r⟩ := ih _ _ _ _ h
        exact ⟨L, r.use (fun _ => .typeDecl hu) (fun d hd => by cases hd <;> simp_all) fun _ => .typeDecl hu⟩
      | phylumDecl t =>
        rw [hu] at h
        obtain ⟨L, r⟩ := ih _ _ _ _ h
        exact ⟨L, r.use (fun _ => .phylumDecl hu) (fun d hd => by cases hd <;> simp_all) fun _ => .phylumDecl hu⟩
      | typeFormal s =>
        rw [hu] at h
        obtain ⟨L, r⟩ := ih _ _ _ _ h
        exact ⟨L, r.use (fun _ => .typeFormal hu) (fun d hd => by cases hd <;> simp_all) fun _ => .typeFormal hu⟩
      | phylumFormal s =>
        rw [hu] at h
        obtain ⟨L, r⟩ := ih _ _ _ _ h
        exact ⟨L, r.use (fun _ => .phylumFormal hu) (fun d hd => by cases hd <;> simp_all) fun _ => .phylumFormal hu⟩
      | «renaming» t =>
        rw [hu] at h
        obtain ⟨L, r⟩ := ih _ _ _ _ h
        exact ⟨L, r.use (fun _ => .typeRenaming hu) (fun d hd => by cases hd <;> simp_all) fun _ => .typeRenaming hu⟩
      | other =>
        rw [hu] at h; cases h
        exact ⟨[], .nil (fun d hd => by cases hd <;> simp_all) rfl⟩

/-! ## The record -/

theorem testBit_addRec (r : String → Nat) (d : Decl) (n : String) (b : Nat) :
    ((addRec r d) n).testBit b = true ↔
      (r n).testBit b = true ∨ (d.name = n ∧ (Bind.namespaces d.kind).testBit b = true) := by
  unfold addRec
  split
  · rename_i h; simp [h]
  · by_cases hn : n = d.name
    · subst hn; simp [Nat.testBit_or]
    · have : ¬ d.name = n := fun h => hn h.symm
      simp [hn, this]

theorem testBit_missing (r : String → Nat) (d : Decl) (b : Nat) : (missing r d).testBit b = true ↔
    (Bind.namespaces d.kind).testBit b = true ∧ (r d.name).testBit b = false := by
  unfold missing
  rw [Nat.testBit_xor, Nat.testBit_and]
  cases (Bind.namespaces d.kind).testBit b <;> cases (r d.name).testBit b <;> simp

theorem missing_zero {r : String → Nat} {d : Decl} (h : missing r d = 0) {b : Nat}
    (hb : (Bind.namespaces d.kind).testBit b = true) : (r d.name).testBit b = true := by
  by_contra hc
  have : (missing r d).testBit b = true := (testBit_missing r d b).2 ⟨hb, by simpa using hc⟩
  rw [h] at this; simp at this

theorem missing_pos {r : String → Nat} {d : Decl} (h : missing r d ≠ 0) : ∃ b, (Bind.namespaces d.kind).testBit b = true ∧
    (r d.name).testBit b = false := by
  by_contra hc
  refine h (Nat.eq_of_testBit_eq fun b => ?_)
  rw [Nat.zero_testBit]
  by_contra hb
  exact hc ⟨b, (testBit_missing r d b).1 (by simpa using hb)⟩

theorem own_rec (own : List Decl) (n : String) (b : Nat) : ∀ r : String → Nat,
    ((own.foldl addRec r) n).testBit b = true ↔
      (r n).testBit b = true ∨ ∃ d ∈ own, d.name = n ∧ (Bind.namespaces d.kind).testBit b = true := by
  induction own with
  | nil => intro r; simp
  | cons d ds ih =>
    intro r
    rw [List.foldl_cons, ih, testBit_addRec]
    simp only [List.mem_cons, exists_eq_or_imp]
    tauto

/-- What holds of the record and of the lines after the declarations `L`. -/
structure Inv (P : Prog) (own : List Decl) (L : List (String × Decl)) (s : (String → Nat) × List Line) : Prop where
  rec_ : ∀ n b, (s.1 n).testBit b = true ↔ (∃ d ∈ own, d.name = n ∧ (Bind.namespaces d.kind).testBit b = true) ∨
    ∃ x ∈ L, x.2.name = n ∧ (Bind.namespaces x.2.kind).testBit b = true
  sound : ∀ l ∈ s.2, ∃ x ∈ L, l ∈ lines (P.code x.2.name) x.1 x.2.kind ∧
    ∃ m ∈ Defines x.2.kind, ∀ d ∈ own, d.name = x.2.name → m ∉ Defines d.kind
  cover : ∀ n m, (s.1 n).testBit (bitOf m) = true → (∃ d ∈ own, d.name = n ∧ m ∈ Defines d.kind) ∨
    (∃ src, (⟨m, P.code n, src⟩ : Line) ∈ s.2) ∨ ∃ x ∈ L, x.2.name = n ∧ m ∈ Defines x.2.kind ∧ ¬ Transferred x.2.kind

theorem inv_init (P : Prog) (own : List Decl) : Inv P own [] (own.foldl addRec fun _ => 0, []) := by
  refine ⟨fun n b => ?_, fun l hl => (by cases hl), fun n m h => ?_⟩
  · simp [own_rec]
  · simp only [own_rec, Nat.zero_testBit, Bool.false_eq_true, false_or] at h
    obtain ⟨d, hd, hn, hb⟩ := h
    exact .inl ⟨d, hd, hn, defines_of_bit hb⟩

theorem transferred_bits {k : Kind} (hk : Transferred k) {b : Nat} (hb : (Bind.namespaces k).testBit b = true) :
    ∃ m ∈ Defines k, bitOf m = b := by
  have hlt : b < 4 := by
    by_contra hc
    have : (Bind.namespaces k).testBit b = false := Nat.testBit_lt_two_pow (Nat.lt_of_lt_of_le
      (show Bind.namespaces k < 2 ^ 4 by cases k <;> decide) (Nat.pow_le_pow_right (by decide) (by omega)))
    rw [this] at hb; cases hb
  revert hb hk
  have : b = 0 ∨ b = 1 ∨ b = 2 ∨ b = 3 := by omega
  rcases this with rfl | rfl | rfl | rfl <;> cases k <;> simp [Transferred] <;> decide

theorem inv_step {P : Prog} {own : List Decl} {L : List (String × Decl)} {s} (h : Inv P own L s) (x : String × Decl) :
    Inv P own (L ++ [x]) (stepC P s x) := by
  unfold stepC
  by_cases hm : missing s.1 x.2 = 0
  · rw [if_pos hm]
    refine ⟨fun n b => ?_, fun l hl => ?_, fun n m hb => ?_⟩
    · rw [h.rec_]
      constructor
      · rintro (h1 | ⟨y, hy, h1⟩)
        · exact .inl h1
        · exact .inr ⟨y, by simp [hy], h1⟩
      · rintro (h1 | ⟨y, hy, h1, h2⟩)
        · exact .inl h1
        · rcases List.mem_append.1 hy with hy | hy
          · exact .inr ⟨y, hy, h1, h2⟩
          · obtain rfl := List.mem_singleton.1 hy
            have := missing_zero hm h2
            rw [h1] at this; exact (h.rec_ n b).1 this
    · obtain ⟨y, hy, e⟩ := h.sound l hl; exact ⟨y, by simp [hy], e⟩
    · rcases h.cover n m hb with h1 | h1 | ⟨y, hy, h1⟩
      · exact .inl h1
      · exact .inr (.inl h1)
      · exact .inr (.inr ⟨y, by simp [hy], h1⟩)
  · rw [if_neg hm]
    refine ⟨fun n b => ?_, fun l hl => ?_, fun n m hb => ?_⟩
    · simp only [testBit_addRec]; rw [h.rec_]
      simp only [List.mem_append, List.mem_singleton, or_and_right, exists_or, exists_eq_left, or_assoc]
    · rcases List.mem_append.1 hl with hl | hl
      · obtain ⟨y, hy, e⟩ := h.sound l hl; exact ⟨y, by simp [hy], e⟩
      · obtain ⟨b, hb, hf⟩ := missing_pos hm
        obtain ⟨m, hmd, rfl⟩ := transferred_bits (lines_pre hl).2.2.2 hb
        refine ⟨x, by simp, hl, m, hmd, fun d hd hn hc => ?_⟩
        have := (h.rec_ x.2.name (bitOf m)).2 (.inl ⟨d, hd, hn, bit_of_defines hc⟩)
        rw [hf] at this; cases this
    · simp only [testBit_addRec] at hb
      rcases hb with hb | ⟨hn, hb⟩
      · rcases h.cover n m hb with h1 | ⟨src, h1⟩ | ⟨y, hy, h1⟩
        · exact .inl h1
        · exact .inr (.inl ⟨src, by simp [h1]⟩)
        · exact .inr (.inr ⟨y, by simp [hy], h1⟩)
      · by_cases ht : Transferred x.2.kind
        · refine .inr (.inl ⟨x.1, ?_⟩)
          rw [← hn]
          exact List.mem_append_right _ (lines_of_defines ht (defines_of_bit hb))
        · exact .inr (.inr ⟨x, by simp, hn, defines_of_bit hb, ht⟩)

theorem inv_fold {P : Prog} {own : List Decl} : ∀ (L' L : List (String × Decl)) s, Inv P own L s →
    Inv P own (L ++ L') (L'.foldl (stepC P) s)
  | [], L, s, h => by simpa using h
  | x :: L', L, s, h => by
    have := inv_fold L' (L ++ [x]) _ (inv_step h x)
    simpa [List.append_assoc] using this

/-! ## No member twice -/

structure Once (P : Prog) (own : List Decl) (s : (String → Nat) × List Line) : Prop where
  nodup : (s.2.map fun l => (l.pre, l.name)).Nodup
  bits : ∀ l ∈ s.2, ∃ n, l.name = P.code n ∧ (s.1 n).testBit (bitOf l.pre) = true ∧
    ∀ d ∈ own, d.name = n → l.pre ∉ Defines d.kind

theorem all_missing {P : Prog} {own : List Decl} {L : List (String × Decl)} {s} (h : Inv P own L s) {x : String × Decl}
    (hA : Apart fun d => d ∈ own ∨ ∃ y ∈ L ++ [x], y.2 = d) (hm : missing s.1 x.2 ≠ 0) (hk : Transferred x.2.kind)
    {m : Pre} (hd : m ∈ Defines x.2.kind) : (s.1 x.2.name).testBit (bitOf m) = false := by
  by_contra hc
  have hc : (s.1 x.2.name).testBit (bitOf m) = true := by simpa using hc
  obtain ⟨b, hb, hf⟩ := missing_pos hm
  obtain ⟨m', hm', rfl⟩ := transferred_bits hk hb
  by_cases hx : x.2.kind = .constructorDecl
  · have hpv : m = .p ∨ m = .v := by rw [hx] at hd; simpa [Defines] using hd
    have hcon : ∀ e : Decl, (e ∈ own ∨ ∃ y ∈ L, y.2 = e) → e.name = x.2.name → m ∈ Defines e.kind →
        (Bind.namespaces e.kind).testBit (bitOf m') = true := by
      intro e he hn hme
      have : e.kind = .constructorDecl := by
        refine hA x.2 e (.inr ⟨x, by simp, rfl⟩) ?_ hn.symm hx (by rcases hpv with rfl | rfl <;> simp [hme])
        exact he.imp id fun ⟨y, hy, e⟩ => ⟨y, by simp [hy], e⟩
      rw [this, ← hx]; exact hb
    have : (s.1 x.2.name).testBit (bitOf m') = true := by
      rcases (h.rec_ _ _).1 hc with ⟨d, h1, h2, h3⟩ | ⟨y, h1, h2, h3⟩
      · exact (h.rec_ _ _).2 (.inl ⟨d, h1, h2, hcon d (.inl h1) h2 (defines_of_bit h3)⟩)
      · exact (h.rec_ _ _).2 (.inr ⟨y, h1, h2, hcon y.2 (.inr ⟨y, h1, rfl⟩) h2 (defines_of_bit h3)⟩)
    rw [hf] at this; cases this
  · have : bitOf m = bitOf m' := by
      revert hk hx hd hm'
      cases x.2.kind <;> cases m <;> cases m' <;> simp [Transferred, Defines, bitOf]
    rw [this, hf] at hc; cases hc

theorem once_step {P : Prog} (hc : Function.Injective P.code) {own : List Decl} {L : List (String × Decl)} {s}
    (h : Inv P own L s) (ho : Once P own s) {x : String × Decl}
    (hA : Apart fun d => d ∈ own ∨ ∃ y ∈ L ++ [x], y.2 = d) : Once P own (stepC P s x) := by
  unfold stepC
  by_cases hm : missing s.1 x.2 = 0
  · rw [if_pos hm]; exact ho
  rw [if_neg hm]
  have new : ∀ l ∈ lines (P.code x.2.name) x.1 x.2.kind, (s.1 x.2.name).testBit (bitOf l.pre) = false := fun l hl =>
    all_missing h hA hm (lines_pre hl).2.2.2 (lines_pre hl).1
  refine ⟨?_, fun l hl => ?_⟩
  · rw [List.map_append, List.nodup_append']
    refine ⟨ho.nodup, lines_nodup _ _ _, ?_⟩
    intro q hq hq'
    obtain ⟨l, hl, rfl⟩ := List.mem_map.1 hq
    obtain ⟨l', hl', e⟩ := List.mem_map.1 hq'
    obtain ⟨n, hn, hb, -⟩ := ho.bits l hl
    have e1 : l'.pre = l.pre := congrArg _root_.Prod.fst e
    have e2 : l'.name = l.name := congrArg _root_.Prod.snd e
    rw [(lines_pre hl').2.1, hn] at e2
    have := new l' hl'
    rw [hc e2, e1, hb] at this; cases this
  · rcases List.mem_append.1 hl with hl | hl
    · obtain ⟨n, hn, hb, ho⟩ := ho.bits l hl
      exact ⟨n, hn, (testBit_addRec _ _ _ _).2 (.inl hb), ho⟩
    · refine ⟨x.2.name, (lines_pre hl).2.1, (testBit_addRec _ _ _ _).2 (.inr ⟨rfl, bit_of_defines (lines_pre hl).1⟩),
        fun d hd hn hdef => ?_⟩
      have := (h.rec_ x.2.name (bitOf l.pre)).2 (.inl ⟨d, hd, hn, bit_of_defines hdef⟩)
      rw [new l hl] at this; cases this

theorem apart_mono {p q : Decl → Prop} (h : ∀ d, p d → q d) (hq : Apart q) : Apart p :=
  fun d e hd he => hq d e (h d hd) (h e he)

theorem once_fold {P : Prog} (hc : Function.Injective P.code) {own : List Decl} : ∀ (L' L : List (String × Decl)) s,
    Inv P own L s → Once P own s → (Apart fun d => d ∈ own ∨ ∃ y ∈ L ++ L', y.2 = d) →
    Once P own (L'.foldl (stepC P) s)
  | [], _, _, _, ho, _ => ho
  | x :: L', L, s, h, ho, hA => by
    refine once_fold hc L' (L ++ [x]) _ (inv_step h x) (once_step hc h ho (apart_mono ?_ hA)) ?_
    · rintro d (hd | ⟨y, hy, e⟩)
      · exact .inl hd
      · exact .inr ⟨y, by simp at hy ⊢; tauto, e⟩
    · simpa [List.append_assoc] using hA

/-! ## Termination -/

theorem go_safe {P : Prog} : ∀ fuel j, (∀ j', Relation.ReflTransGen (Needs P) j j' → Found P j') → ∀ src st,
    go P fuel j src st ≠ .ub ∧ go P fuel j src st ≠ .stop := by
  have bnd : ∀ {x : Res St} {f : St → Res St}, x ≠ .ub ∧ x ≠ .stop → (∀ a, f a ≠ .ub ∧ f a ≠ .stop) →
      x.bind f ≠ .ub ∧ x.bind f ≠ .stop := by
    intro x f hx hf; cases x <;> simp_all
  intro fuel
  induction fuel with
  | zero => intro j _ src st; simp [go]
  | succ fuel ih =>
    intro j hj src st
    have sub : ∀ {j'}, Needs P j j' → ∀ src st, go P fuel j' src st ≠ .ub ∧ go P fuel j' src st ≠ .stop :=
      fun h => ih _ fun j'' h' => hj j'' (.head h h')
    have self := hj j .refl
    match j with
    | .cls c =>
      simp only [go]
      cases hC : P.cls c with
      | none => simp [Found, hC] at self
      | some C =>
        refine bnd (sub (.parent hC) _ _) fun a => bnd ?_ fun b => by simp
        split
        · rename_i h; exact sub (.result hC h.1 h.2) _ _
        · simp
    | .sig .none => simp [go]
    | .sig (.use d) =>
      simp only [go]
      cases hs : P.sig d with
      | decl s => exact sub (.sigDecl hs) _ _
      | «renaming» s => exact bnd (sub (.sigRenaming hs) _ _) fun a => by simp
      | other => simp
    | .sig .fixed => simp [go]
    | .sig (.mult s1 s2) => exact bnd (sub .left _ _) fun a => sub .right _ _
    | .sig (.inst c) => exact sub .sigInst _ _
    | .ty ph .noType =>
      simp only [go]
      cases hb : findBasic P (if ph = true then "PHYLUM" else "TYPE") with
      | none => simp [Found, hb] at self
      | some c => exact sub (.plain hb) _ _
    | .ty _ (.remote t) => exact sub .remote _ _
    | .ty ph (.priv t) => exact sub .priv _ _
    | .ty _ .func => simp [go]
    | .ty _ (.inst m) => exact sub .inst _ _
    | .ty ph (.use u) =>
      simp only [go]
      cases hu : P.tdef u with
      | typeDecl t => exact sub (.typeDecl hu) _ _
      | phylumDecl t => exact sub (.phylumDecl hu) _ _
      | typeFormal s => exact sub (.typeFormal hu) _ _
      | phylumFormal s => exact sub (.phylumFormal hu) _ _
      | «renaming» t => exact sub (.typeRenaming hu) _ _
      | other => simp

/-- Enough fuel for one call. -/
def Ends (P : Prog) (j : Job) (N : Nat) : Prop := ∀ fuel, N ≤ fuel → ∀ src st, go P fuel j src st ≠ .nofuel

theorem go_ends {P : Prog} {j : Job} (h : Acc (fun a b => Needs P b a) j) : ∃ N, Ends P j N := by
  have bnd : ∀ {x : Res St} {f : St → Res St}, x ≠ .nofuel → (∀ a, f a ≠ .nofuel) → x.bind f ≠ .nofuel := by
    intro x f hx hf; cases x <;> simp_all
  have one : ∀ {j j' : Job}, (∃ N, Ends P j' N) → (∀ fuel, (∀ src st, go P fuel j' src st ≠ .nofuel) →
      ∀ src st, go P (fuel + 1) j src st ≠ .nofuel) → ∃ N, Ends P j N := by
    rintro j j' ⟨N, hN⟩ hf
    refine ⟨N + 1, fun fuel hle src st => ?_⟩
    obtain ⟨f, rfl⟩ : ∃ f, fuel = f + 1 := ⟨fuel - 1, by omega⟩
    exact hf f (hN f (by omega)) src st
  have zero : ∀ {j : Job}, (∀ fuel src st, go P (fuel + 1) j src st ≠ .nofuel) → ∃ N, Ends P j N := by
    intro j hf
    refine ⟨1, fun fuel hle src st => ?_⟩
    obtain ⟨f, rfl⟩ : ∃ f, fuel = f + 1 := ⟨fuel - 1, by omega⟩
    exact hf f src st
  induction h with
  | intro j _ ih =>
    match j with
    | .cls c =>
      cases hC : P.cls c with
      | none => exact zero fun fuel src st => by simp [go, hC]
      | some C =>
        obtain ⟨N1, h1⟩ := ih _ (.parent hC)
        by_cases hm : C.isModule = true ∧ C.name ≠ "TYPE"
        · obtain ⟨N2, h2⟩ := ih _ (.result hC hm.1 hm.2)
          refine ⟨max N1 N2 + 1, fun fuel hle src st => ?_⟩
          obtain ⟨f, rfl⟩ : ∃ f, fuel = f + 1 := ⟨fuel - 1, by omega⟩
          simp only [go, hC]
          refine bnd (h1 f (by omega) _ _) fun a => bnd ?_ fun b => by simp
          rw [if_pos hm]; exact h2 f (by omega) _ _
        · refine one ⟨N1, h1⟩ fun f h1 src st => ?_
          simp only [go, hC]
          refine bnd (h1 _ _) fun a => bnd ?_ fun b => by simp
          rw [if_neg hm]; simp
    | .sig .none => exact zero fun fuel src st => by simp [go]
    | .sig (.use d) =>
      cases hs : P.sig d with
      | decl s => exact one (ih _ (.sigDecl hs)) fun f h src st => by simp only [go, hs]; exact h _ _
      | «renaming» s =>
        refine one (ih _ (.sigRenaming hs)) fun f h src st => ?_
        simp only [go, hs]; exact bnd (h _ _) fun a => by simp
      | other => exact zero fun fuel src st => by simp [go, hs]
    | .sig .fixed => exact zero fun fuel src st => by simp [go]
    | .sig (.mult s1 s2) =>
      obtain ⟨N1, h1⟩ := ih _ .left
      obtain ⟨N2, h2⟩ := ih _ .right
      refine ⟨max N1 N2 + 1, fun fuel hle src st => ?_⟩
      obtain ⟨f, rfl⟩ : ∃ f, fuel = f + 1 := ⟨fuel - 1, by omega⟩
      exact bnd (h1 f (by omega) _ _) fun a => h2 f (by omega) _ _
    | .sig (.inst c) => exact one (ih _ .sigInst) fun f h src st => h _ _
    | .ty ph .noType =>
      cases hb : findBasic P (if ph = true then "PHYLUM" else "TYPE") with
      | none => exact zero fun fuel src st => by simp [go, hb]
      | some c => exact one (ih _ (.plain hb)) fun f h src st => by simp only [go, hb]; exact h _ _
    | .ty _ (.remote t) => exact one (ih _ .remote) fun f h src st => h _ _
    | .ty ph (.priv t) => exact one (ih _ .priv) fun f h src st => h _ _
    | .ty _ .func => exact zero fun fuel src st => by simp [go]
    | .ty _ (.inst m) => exact one (ih _ .inst) fun f h src st => h _ _
    | .ty ph (.use u) =>
      cases hu : P.tdef u with
      | typeDecl t => exact one (ih _ (.typeDecl hu)) fun f h src st => by simp only [go, hu]; exact h _ _
      | phylumDecl t => exact one (ih _ (.phylumDecl hu)) fun f h src st => by simp only [go, hu]; exact h _ _
      | typeFormal s => exact one (ih _ (.typeFormal hu)) fun f h src st => by simp only [go, hu]; exact h _ _
      | phylumFormal s => exact one (ih _ (.phylumFormal hu)) fun f h src st => by simp only [go, hu]; exact h _ _
      | «renaming» t => exact one (ih _ (.typeRenaming hu)) fun f h src st => by simp only [go, hu]; exact h _ _
      | other => exact zero fun fuel src st => by simp [go, hu]

/-- A call that needs itself never ends well. -/
theorem go_cycle {P : Prog} {c m : Nat} {C M : Class} (hb : findBasic P "PHYLUM" = some c) (hC : P.cls c = some C)
    (hCm : C.isModule = true) (hCn : C.name ≠ "TYPE") (hCr : C.result = .inst m) (hM : P.cls m = some M)
    (hMm : M.isModule = true) (hMn : M.name ≠ "TYPE") (hMp : M.resultIsPhylum = true) (hMr : M.result = .noType) :
    ∀ fuel src st st', go P fuel (.ty true .noType) src st ≠ .ok st' := by
  intro fuel
  induction fuel using Nat.strongRecOn with
  | _ fuel ih =>
    intro src st st' h
    match fuel with
    | 0 => simp [go] at h
    | 1 => simp [go, hb] at h
    | f + 2 =>
      simp only [go, if_true, hb, hC] at h
      obtain ⟨s1, _, h⟩ := Res.bind_eq_ok.1 h
      obtain ⟨s2, g, _⟩ := Res.bind_eq_ok.1 h
      rw [if_pos ⟨hCm, hCn⟩, hCr] at g
      match f with
      | 0 => simp [go] at g
      | 1 => simp [go] at g
      | f + 2 =>
        simp only [go, hM] at g
        obtain ⟨s3, _, g⟩ := Res.bind_eq_ok.1 g
        obtain ⟨s4, g', _⟩ := Res.bind_eq_ok.1 g
        rw [if_pos ⟨hMm, hMn⟩, hMp, hMr] at g'
        exact ih f (by omega) _ _ _ g'

end Aps.Service
