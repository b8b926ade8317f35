import Verif.Spec.CService
import Verif.Proofs.Service
/-! # Proofs about the service transfers of the C++ backend -/
namespace Aps.CService
open Aps.Bind (Kind)
open Aps.Service (Decl Sig Ty SigDecl TDef addRec missing testBit_addRec missing_zero missing_pos own_rec)

theorem names_bit (k : Kind) : NamesType k ↔ (Bind.namespaces k).testBit 1 = true := by
  cases k <;> simp only [NamesType, true_iff, false_iff] <;> decide

theorem IsType.names {k : Kind} (h : IsType k) : NamesType k := by cases k <;> trivial

theorem IsType.bit {k : Kind} (h : IsType k) {b : Nat} (hb : (Bind.namespaces k).testBit b = true) : b = 1 := by
  have e : Bind.namespaces k = Bind.nameType := by cases k <;> first | rfl | cases h
  rw [e] at hb
  match b with
  | 0 => exact absurd hb (by decide)
  | 1 => rfl
  | b + 2 =>
    rw [show Bind.nameType = 2 from rfl] at hb
    rw [Nat.testBit_succ] at hb
    rw [Nat.testBit_succ] at hb
    simp at hb

theorem typedefs_mem {n src : String} {k : Kind} {l : Typedef} (h : l ∈ typedefs n src k) : IsType k ∧ l.name = n ∧ l.src = src := by
  cases k <;> simp [typedefs] at h <;> rcases h with rfl | rfl <;> exact ⟨trivial, rfl, rfl⟩

theorem typedefs_all {k : Kind} (h : IsType k) (n src : String) (g : Tag) : (⟨g, n, src⟩ : Typedef) ∈ typedefs n src k := by
  cases g <;> cases k <;> first | exact h.elim | simp [typedefs]

def core (st : St) : (String → Nat) × List Typedef := (st.rec_, st.out)

/-- One round on the record and the output. -/
def stepC (src : String) (s : (String → Nat) × List Typedef) (d : CDecl) : (String → Nat) × List Typedef :=
  core (step src ⟨s.1, s.2, 0⟩ d)

theorem core_step (src : String) (st : St) (d : CDecl) : core (step src st d) = stepC src (core st) d := by
  unfold stepC step core; simp only
  repeat' (first | rfl | split)

theorem core_foldl (src : String) (ds : List CDecl) : ∀ st, core (ds.foldl (step src) st) = ds.foldl (stepC src) (core st) := by
  induction ds with
  | nil => intro st; rfl
  | cons d ds ih => intro st; simp only [List.foldl_cons]; rw [ih, core_step]

@[simp] theorem core_err (st : St) : core (err st) = core st := rfl

/-- `Offers` as the search goes: not through what modules extend. -/
inductive Finds (P : Prog) : Sig → CDecl → Prop where
  | own {c C d} : P.cls c = some C → d ∈ (C : Class).contents → Finds P (.inst c) d
  | parent {c C d} : P.cls c = some C → Finds P C.parent d → Finds P (.inst c) d
  | sigDecl {s t d} : P.sig s = .decl t → Finds P t d → Finds P (.use s) d
  | sigRenaming {s t d} : P.sig s = .renaming t → Finds P t d → Finds P (.use s) d
  | left {s t d} : Finds P s d → Finds P (.mult s t) d
  | right {s t d} : Finds P t d → Finds P (.mult s t) d

theorem offers_of_finds {P : Prog} {s : Sig} {d : CDecl} (h : Finds P s d) : Offers P s d := by
  induction h with
  | own h1 h2 => exact .own h1 h2
  | parent h1 _ ih => exact .parent h1 ih
  | sigDecl h1 _ ih => exact .sigDecl h1 ih
  | sigRenaming h1 _ ih => exact .sigRenaming h1 ih
  | left _ ih => exact .left ih
  | right _ ih => exact .right ih

theorem finds_of_offers {P : Prog} {d : CDecl} (hM : ∀ c C, P.cls c = some C → C.isModule = true → ¬ Has P C.result d) {s : Sig}
    (h : Offers P s d) : Finds P s d := by
  refine Offers.rec (P := P) (motive_1 := fun s e _ => e = d → Finds P s d) (motive_2 := fun _ _ _ => True) ?_ ?_ ?_ ?_ ?_ ?_ ?_
    ?_ ?_ ?_ ?_ ?_ ?_ ?_ ?_ ?_ h rfl
  · rintro c C e h1 h2 rfl; exact .own h1 h2
  · rintro c C e h1 _ ih he; exact .parent h1 (ih he)
  · rintro c C e h1 h2 h3 _ rfl; exact absurd h3 (hM _ _ h1 h2)
  · rintro c C e h1 _ ih he; exact .sigDecl h1 (ih he)
  · rintro c C e h1 _ ih he; exact .sigRenaming h1 (ih he)
  · rintro c C e _ ih he; exact .left (ih he)
  · rintro c C e _ ih he; exact .right (ih he)
  all_goals intros; trivial

theorem sig_ran (P : Prog) : ∀ fuel s src st st', goSig P fuel s src st = .ok st' →
    ∃ L : List CDecl, (∀ d, d ∈ L ↔ Finds P s d) ∧ core st' = L.foldl (stepC src) (core st) := by
  intro fuel
  induction fuel with
  | zero => intro s src st st' h; simp [goSig] at h
  | succ fuel ih =>
    intro s src st st' h
    match s with
    | .none =>
      simp only [goSig] at h; cases h
      exact ⟨[], fun d => ⟨fun h => (by cases h), fun h => (by cases h)⟩, rfl⟩
    | .fixed =>
      simp only [goSig] at h; cases h
      exact ⟨[], fun d => ⟨fun h => (by cases h), fun h => (by cases h)⟩, rfl⟩
    | .use u =>
      simp only [goSig] at h
      cases hs : P.sig u with
      | decl t =>
        rw [hs] at h
        obtain ⟨L, h1, h2⟩ := ih _ _ _ _ h
        exact ⟨L, fun d => (h1 d).trans ⟨.sigDecl hs, fun h => by cases h <;> simp_all⟩, h2⟩
      | «renaming» t =>
        rw [hs] at h
        obtain ⟨s1, g, h⟩ := Res.bind_eq_ok.1 h
        cases h
        obtain ⟨L, h1, h2⟩ := ih _ _ _ _ g
        exact ⟨L, fun d => (h1 d).trans ⟨.sigRenaming hs, fun h => by cases h <;> simp_all⟩, by rw [core_err]; exact h2⟩
      | other =>
        rw [hs] at h; cases h
        exact ⟨[], fun d => ⟨fun h => (by cases h), fun h => by cases h <;> simp_all⟩, rfl⟩
    | .mult s1 s2 =>
      simp only [goSig] at h
      obtain ⟨st1, g1, g2⟩ := Res.bind_eq_ok.1 h
      obtain ⟨L1, h1, e1⟩ := ih _ _ _ _ g1
      obtain ⟨L2, h2, e2⟩ := ih _ _ _ _ g2
      refine ⟨L1 ++ L2, fun d => ?_, by rw [e2, e1, List.foldl_append]⟩
      rw [List.mem_append, h1, h2]
      exact ⟨fun h => h.elim .left .right, fun h => by cases h with | left h => exact .inl h | right h => exact .inr h⟩
    | .inst c =>
      simp only [goSig] at h
      cases hC : P.cls c with
      | none => rw [hC] at h; cases h
      | some C =>
        rw [hC] at h
        obtain ⟨s1, g, h⟩ := Res.bind_eq_ok.1 h
        cases h
        obtain ⟨L, h1, e1⟩ := ih _ _ _ _ g
        refine ⟨L ++ C.contents, fun d => ?_, by rw [core_foldl, e1, List.foldl_append]⟩
        rw [List.mem_append, h1]
        constructor
        · exact fun h => h.elim (.parent hC) (.own hC)
        · intro h
          cases h with
          | own e h => rw [hC] at e; cases e; exact .inr h
          | parent e h => rw [hC] at e; cases e; exact .inl h

theorem ty_ran (P : Prog) : ∀ fuel t st st', goTy P fuel t st = .ok st' →
    (core st' = core st ∧ ∀ u s, ¬ Stands P t u s) ∨ ∃ u s, Stands P t u s ∧ (∀ v r, Stands P t v r → v = u ∧ r = s) ∧
      ∃ L : List CDecl, (∀ d, d ∈ L ↔ Finds P s d) ∧ core st' = L.foldl (stepC ("C_" ++ P.tname u)) (core st) := by
  intro fuel
  induction fuel with
  | zero => intro t st st' h; simp [goTy] at h
  | succ fuel ih =>
    intro t st st' h
    have sub : ∀ t', (∀ u s, Stands P t u s ↔ Stands P t' u s) → goTy P fuel t' st = .ok st' →
        (core st' = core st ∧ ∀ u s, ¬ Stands P t u s) ∨ ∃ u s, Stands P t u s ∧ (∀ v r, Stands P t v r → v = u ∧ r = s) ∧
          ∃ L : List CDecl, (∀ d, d ∈ L ↔ Finds P s d) ∧ core st' = L.foldl (stepC ("C_" ++ P.tname u)) (core st) := by
      intro t' ht h
      rcases ih _ _ _ h with ⟨e, hn⟩ | ⟨u, s, h1, h2, h3⟩
      · exact .inl ⟨e, fun u s h => hn u s ((ht u s).1 h)⟩
      · exact .inr ⟨u, s, (ht u s).2 h1, fun v r h => h2 v r ((ht v r).1 h), h3⟩
    match t with
    | .noType =>
      simp only [goTy] at h; cases h
      exact .inl ⟨rfl, fun u s h => by cases h⟩
    | .func =>
      simp only [goTy] at h; cases h
      exact .inl ⟨rfl, fun u s h => by cases h⟩
    | .inst m =>
      simp only [goTy] at h; cases h
      exact .inl ⟨rfl, fun u s h => by cases h⟩
    | .remote t =>
      simp only [goTy] at h
      exact sub t (fun u s => ⟨fun h => by cases h; assumption, .remote⟩) h
    | .priv t =>
      simp only [goTy] at h
      exact sub t (fun u s => ⟨fun h => by cases h; assumption, .priv⟩) h
    | .use v =>
      simp only [goTy] at h
      cases hv : P.tdef v with
      | typeDecl t =>
        rw [hv] at h
        exact sub t (fun u s => ⟨fun h => by cases h <;> simp_all, .typeDecl hv⟩) h
      | phylumDecl t =>
        rw [hv] at h
        exact sub t (fun u s => ⟨fun h => by cases h <;> simp_all, .phylumDecl hv⟩) h
      | «renaming» t =>
        rw [hv] at h
        exact sub t (fun u s => ⟨fun h => by cases h <;> simp_all, .typeRenaming hv⟩) h
      | typeFormal s =>
        rw [hv] at h
        exact .inr ⟨v, s, .typeFormal hv, fun u r h => (by cases h <;> simp_all), sig_ran P _ _ _ _ _ h⟩
      | phylumFormal s =>
        rw [hv] at h
        exact .inr ⟨v, s, .phylumFormal hv, fun u r h => (by cases h <;> simp_all), sig_ran P _ _ _ _ _ h⟩
      | other =>
        rw [hv] at h; cases h
        exact .inl ⟨rfl, fun u s h => by cases h <;> simp_all⟩

/-! ## The loop -/

structure Inv (own : List Decl) (src : String) (L : List CDecl) (s : (String → Nat) × List Typedef) : Prop where
  mine : ∀ e ∈ own, NamesType e.kind → (s.1 e.name).testBit 1 = true
  sound : ∀ l ∈ s.2, ∃ d ∈ L, d.pub = true ∧ IsType d.decl.kind ∧ l.name = d.decl.name ∧ l.src = src ∧
    ∀ e ∈ own, e.name = d.decl.name → ¬ NamesType e.kind
  seen : ∀ d ∈ L, d.pub = true → NamesType d.decl.kind → (s.1 d.decl.name).testBit 1 = true
  cover : ∀ n, (s.1 n).testBit 1 = true → (∃ e ∈ own, e.name = n ∧ NamesType e.kind) ∨ (∀ g, (⟨g, n, src⟩ : Typedef) ∈ s.2) ∨
    ∃ d ∈ L, d.pub = true ∧ d.decl.name = n ∧ NamesType d.decl.kind ∧ ¬ IsType d.decl.kind
  once : (s.2.map fun l => (l.tag, l.name)).Nodup
  bits : ∀ l ∈ s.2, (s.1 l.name).testBit 1 = true

theorem inv_init (own : List Decl) (src : String) : Inv own src [] (own.foldl addRec fun _ => 0, []) := by
  refine ⟨fun e he hk => (own_rec own _ _ _).2 (.inr ⟨e, he, rfl, (names_bit _).1 hk⟩), fun l hl => (by cases hl),
    fun d hd => (by cases hd), fun n h => ?_, List.nodup_nil, fun l hl => (by cases hl)⟩
  rcases (own_rec own _ _ _).1 h with h | ⟨e, he, hn, hb⟩
  · simp at h
  · exact .inl ⟨e, he, hn, (names_bit _).2 hb⟩

theorem inv_step {own : List Decl} {src : String} {L : List CDecl} {s} (h : Inv own src L s) (x : CDecl) :
    Inv own src (L ++ [x]) (stepC src s x) := by
  have old : (x.pub = true → NamesType x.decl.kind → (s.1 x.decl.name).testBit 1 = true) → Inv own src (L ++ [x]) s := by
    intro hx
    refine ⟨h.mine, fun l hl => ?_, fun d hd hp hk => ?_, fun n hb => ?_, h.once, h.bits⟩
    · obtain ⟨d, hd, e⟩ := h.sound l hl; exact ⟨d, by simp [hd], e⟩
    · rcases List.mem_append.1 hd with hd | hd
      · exact h.seen d hd hp hk
      · obtain rfl := List.mem_singleton.1 hd; exact hx hp hk
    · rcases h.cover n hb with h1 | h1 | ⟨d, hd, h1⟩
      · exact .inl h1
      · exact .inr (.inl h1)
      · exact .inr (.inr ⟨d, by simp [hd], h1⟩)
  unfold stepC step core
  simp only
  by_cases hm : missing s.1 x.decl = 0
  · rw [if_pos hm]
    exact old fun _ hk => missing_zero hm ((names_bit _).1 hk)
  rw [if_neg hm]
  by_cases hp : x.pub = false
  · rw [if_pos hp]
    exact old fun h => by rw [hp] at h; cases h
  rw [if_neg hp]
  have hp : x.pub = true := by simpa using hp
  have up : ∀ n, (s.1 n).testBit 1 = true → ((addRec s.1 x.decl) n).testBit 1 = true := fun n h => (testBit_addRec _ _ _ _).2 (.inl h)
  have new : IsType x.decl.kind → (s.1 x.decl.name).testBit 1 = false := by
    intro hk
    obtain ⟨b, hb, hf⟩ := missing_pos hm
    rw [hk.bit hb] at hf; exact hf
  refine ⟨fun e he hk => up _ (h.mine e he hk), fun l hl => ?_, fun d hd hp' hk => ?_, fun n hb => ?_, ?_, fun l hl => ?_⟩
  · rcases List.mem_append.1 hl with hl | hl
    · obtain ⟨d, hd, e⟩ := h.sound l hl; exact ⟨d, by simp [hd], e⟩
    · obtain ⟨hk, h1, h2⟩ := typedefs_mem hl
      refine ⟨x, by simp, hp, hk, h1, h2, fun e he hn hc => ?_⟩
      have := h.mine e he hc
      rw [hn, new hk] at this; cases this
  · rcases List.mem_append.1 hd with hd | hd
    · exact up _ (h.seen d hd hp' hk)
    · obtain rfl := List.mem_singleton.1 hd
      exact (testBit_addRec _ _ _ _).2 (.inr ⟨rfl, (names_bit _).1 hk⟩)
  · rcases (testBit_addRec _ _ _ _).1 hb with hb | ⟨hn, hb⟩
    · rcases h.cover n hb with h1 | h1 | ⟨d, hd, h1⟩
      · exact .inl h1
      · exact .inr (.inl fun g => List.mem_append_left _ (h1 g))
      · exact .inr (.inr ⟨d, by simp [hd], h1⟩)
    · by_cases hk : IsType x.decl.kind
      · exact .inr (.inl fun g => List.mem_append_right _ (hn ▸ typedefs_all hk _ _ g))
      · exact .inr (.inr ⟨x, by simp, hp, hn, (names_bit _).2 hb, hk⟩)
  · rw [List.map_append, List.nodup_append']
    refine ⟨h.once, ?_, ?_⟩
    · cases x.decl.kind <;> simp [typedefs]
    · intro q hq hq'
      obtain ⟨l, hl, rfl⟩ := List.mem_map.1 hq
      obtain ⟨l', hl', e⟩ := List.mem_map.1 hq'
      obtain ⟨hk, h1, -⟩ := typedefs_mem hl'
      have e2 : l'.name = l.name := congrArg _root_.Prod.snd e
      have := h.bits l hl
      rw [← e2, h1, new hk] at this; cases this
  · rcases List.mem_append.1 hl with hl | hl
    · exact up _ (h.bits l hl)
    · obtain ⟨hk, h1, -⟩ := typedefs_mem hl
      rw [h1]
      exact (testBit_addRec _ _ _ _).2 (.inr ⟨rfl, (names_bit _).1 hk.names⟩)

theorem inv_fold {own : List Decl} {src : String} : ∀ (L' L : List CDecl) s, Inv own src L s →
    Inv own src (L ++ L') (L'.foldl (stepC src) s)
  | [], L, s, h => by simpa using h
  | x :: L', L, s, h => by
    have := inv_fold L' (L ++ [x]) _ (inv_step h x)
    simpa [List.append_assoc] using this

/-- What the transfers come to. -/
theorem transfers_ran {P : Prog} {fuel : Nat} {own : List Decl} {t : Ty} {st : St} (h : transfers P fuel own t = .ok st) :
    (st.out = [] ∧ ∀ u s, ¬ Stands P t u s) ∨ ∃ u s, Stands P t u s ∧ (∀ v r, Stands P t v r → v = u ∧ r = s) ∧
      ∃ L : List CDecl, (∀ d, d ∈ L ↔ Finds P s d) ∧ Inv own ("C_" ++ P.tname u) L (core st) := by
  rcases ty_ran P _ _ _ _ h with ⟨e, hn⟩ | ⟨u, s, h1, h2, L, h3, h4⟩
  · exact .inl ⟨congrArg _root_.Prod.snd e, hn⟩
  · refine .inr ⟨u, s, h1, h2, L, h3, ?_⟩
    rw [h4]
    exact inv_fold L [] _ (inv_init own ("C_" ++ P.tname u))

theorem superclass_stands {P : Prog} {t : Ty} {u : Nat} {s : Sig} (h : Stands P t u s) : ∀ fuel ph c,
    superclass P fuel ph t = .ok c → c = "C_" ++ P.tname u := by
  induction h with
  | typeFormal e => intro fuel ph c h; cases fuel <;> simp [superclass, e] at h; exact h.symm
  | phylumFormal e => intro fuel ph c h; cases fuel <;> simp [superclass, e] at h; exact h.symm
  | remote _ ih => intro fuel ph c h; cases fuel <;> simp [superclass] at h; exact ih _ _ _ h
  | priv _ ih => intro fuel ph c h; cases fuel <;> simp [superclass] at h; exact ih _ _ _ h
  | typeDecl e _ ih => intro fuel ph c h; cases fuel <;> simp [superclass, e] at h; exact ih _ _ _ h
  | phylumDecl e _ ih => intro fuel ph c h; cases fuel <;> simp [superclass, e] at h; exact ih _ _ _ h
  | typeRenaming e _ ih => intro fuel ph c h; cases fuel <;> simp [superclass, e] at h; exact ih _ _ _ h

/-! ## Termination -/

theorem sig_ends {P : Prog} {s : Sig} (h : SigDefined P s) :
    ∃ N, ∀ fuel, N ≤ fuel → ∀ src st, ∃ st', goSig P fuel s src st = .ok st' := by
  induction h with
  | none => exact ⟨1, fun fuel hle src st => by obtain ⟨f, rfl⟩ : ∃ f, fuel = f + 1 := ⟨fuel - 1, by omega⟩; exact ⟨st, rfl⟩⟩
  | fixed => exact ⟨1, fun fuel hle src st => by obtain ⟨f, rfl⟩ : ∃ f, fuel = f + 1 := ⟨fuel - 1, by omega⟩; exact ⟨st, rfl⟩⟩
  | sigDecl hu _ ih =>
    obtain ⟨N, hN⟩ := ih
    refine ⟨N + 1, fun fuel hle src st => ?_⟩
    obtain ⟨f, rfl⟩ : ∃ f, fuel = f + 1 := ⟨fuel - 1, by omega⟩
    simp only [goSig, hu]; exact hN f (by omega) _ _
  | sigRenaming hu _ ih =>
    obtain ⟨N, hN⟩ := ih
    refine ⟨N + 1, fun fuel hle src st => ?_⟩
    obtain ⟨f, rfl⟩ : ∃ f, fuel = f + 1 := ⟨fuel - 1, by omega⟩
    obtain ⟨st', e⟩ := hN f (by omega) src st
    exact ⟨err st', by simp only [goSig, hu, e, Res.bind]⟩
  | mult _ _ ih1 ih2 =>
    obtain ⟨N1, h1⟩ := ih1
    obtain ⟨N2, h2⟩ := ih2
    refine ⟨max N1 N2 + 1, fun fuel hle src st => ?_⟩
    obtain ⟨f, rfl⟩ : ∃ f, fuel = f + 1 := ⟨fuel - 1, by omega⟩
    obtain ⟨st1, e1⟩ := h1 f (by omega) src st
    obtain ⟨st2, e2⟩ := h2 f (by omega) src st1
    exact ⟨st2, by simp only [goSig, e1, Res.bind, e2]⟩
  | inst hC _ ih =>
    obtain ⟨N, hN⟩ := ih
    refine ⟨N + 1, fun fuel hle src st => ?_⟩
    obtain ⟨f, rfl⟩ : ∃ f, fuel = f + 1 := ⟨fuel - 1, by omega⟩
    obtain ⟨st1, e1⟩ := hN f (by omega) src st
    exact ⟨_, by simp only [goSig, hC, e1, Res.bind]; rfl⟩

theorem ty_ends {P : Prog} {t : Ty} (h : TyDefined P t) : ∃ N, ∀ fuel, N ≤ fuel → ∀ st, ∃ st', goTy P fuel t st = .ok st' := by
  have one : ∀ {t t' : Ty}, (∃ N, ∀ fuel, N ≤ fuel → ∀ st, ∃ st', goTy P fuel t' st = .ok st') →
      (∀ fuel st, goTy P (fuel + 1) t st = goTy P fuel t' st) → ∃ N, ∀ fuel, N ≤ fuel → ∀ st, ∃ st', goTy P fuel t st = .ok st' := by
    rintro t t' ⟨N, hN⟩ hf
    refine ⟨N + 1, fun fuel hle st => ?_⟩
    obtain ⟨f, rfl⟩ : ∃ f, fuel = f + 1 := ⟨fuel - 1, by omega⟩
    rw [hf]; exact hN f (by omega) st
  have zero : ∀ {t : Ty}, (∀ fuel st, ∃ st', goTy P (fuel + 1) t st = .ok st') →
      ∃ N, ∀ fuel, N ≤ fuel → ∀ st, ∃ st', goTy P fuel t st = .ok st' := by
    intro t hf
    refine ⟨1, fun fuel hle st => ?_⟩
    obtain ⟨f, rfl⟩ : ∃ f, fuel = f + 1 := ⟨fuel - 1, by omega⟩
    exact hf f st
  have sg : ∀ {u s}, SigDefined P s → (∀ fuel st, goTy P (fuel + 1) (.use u) st = goSig P fuel s ("C_" ++ P.tname u) st) →
      ∃ N, ∀ fuel, N ≤ fuel → ∀ st, ∃ st', goTy P fuel (.use u) st = .ok st' := by
    intro u s hs e
    obtain ⟨N, hN⟩ := sig_ends hs
    refine ⟨N + 1, fun fuel hle st => ?_⟩
    obtain ⟨f, rfl⟩ : ∃ f, fuel = f + 1 := ⟨fuel - 1, by omega⟩
    rw [e]; exact hN f (by omega) _ st
  induction h with
  | noType => exact zero fun fuel st => ⟨st, rfl⟩
  | func => exact zero fun fuel st => ⟨st, rfl⟩
  | inst => exact zero fun fuel st => ⟨st, rfl⟩
  | remote _ ih => exact one ih fun f st => rfl
  | priv _ ih => exact one ih fun f st => rfl
  | typeDecl hu _ ih => exact one ih fun f st => by simp only [goTy, hu]
  | phylumDecl hu _ ih => exact one ih fun f st => by simp only [goTy, hu]
  | typeRenaming hu _ ih => exact one ih fun f st => by simp only [goTy, hu]
  | typeFormal hu hs => exact sg hs fun f st => by simp only [goTy, hu]
  | phylumFormal hu hs => exact sg hs fun f st => by simp only [goTy, hu]

theorem superclass_ends {P : Prog} {t : Ty} (h : TyDefined P t) : ∃ N, ∀ fuel, N ≤ fuel → ∀ ph, ∃ c, superclass P fuel ph t = .ok c := by
  have one : ∀ {t t' : Ty}, (∃ N, ∀ fuel, N ≤ fuel → ∀ ph, ∃ c, superclass P fuel ph t' = .ok c) →
      (∀ fuel ph, ∃ b, superclass P (fuel + 1) ph t = superclass P fuel b t') →
      ∃ N, ∀ fuel, N ≤ fuel → ∀ ph, ∃ c, superclass P fuel ph t = .ok c := by
    rintro t t' ⟨N, hN⟩ hf
    refine ⟨N + 1, fun fuel hle ph => ?_⟩
    obtain ⟨f, rfl⟩ : ∃ f, fuel = f + 1 := ⟨fuel - 1, by omega⟩
    obtain ⟨b, e⟩ := hf f ph
    rw [e]; exact hN f (by omega) b
  have zero : ∀ {t : Ty}, (∀ fuel ph, ∃ c, superclass P (fuel + 1) ph t = .ok c) →
      ∃ N, ∀ fuel, N ≤ fuel → ∀ ph, ∃ c, superclass P fuel ph t = .ok c := by
    intro t hf
    refine ⟨1, fun fuel hle ph => ?_⟩
    obtain ⟨f, rfl⟩ : ∃ f, fuel = f + 1 := ⟨fuel - 1, by omega⟩
    exact hf f ph
  induction h with
  | noType => exact zero fun fuel ph => ⟨_, rfl⟩
  | func => exact zero fun fuel ph => ⟨_, rfl⟩
  | inst => exact zero fun fuel ph => ⟨_, rfl⟩
  | remote _ ih => exact one ih fun f ph => ⟨_, rfl⟩
  | priv _ ih => exact one ih fun f ph => ⟨_, rfl⟩
  | typeDecl hu _ ih => exact one ih fun f ph => ⟨false, by simp only [superclass, hu]⟩
  | phylumDecl hu _ ih => exact one ih fun f ph => ⟨true, by simp only [superclass, hu]⟩
  | typeRenaming hu _ ih => exact one ih fun f ph => ⟨true, by simp only [superclass, hu]⟩
  | typeFormal hu hs => exact zero fun f ph => ⟨_, by simp only [superclass, hu]; rfl⟩
  | phylumFormal hu hs => exact zero fun f ph => ⟨_, by simp only [superclass, hu]; rfl⟩

end Aps.CService
