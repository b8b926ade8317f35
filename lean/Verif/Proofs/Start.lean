import Verif.Spec.Start
import Mathlib.Data.List.Basic
import Mathlib.Tactic.Common
/-! # Proofs about defaults -/
namespace Aps.Start
variable {V : Type}

theorem okb {α β : Type} (a : α) (f : α → Res β) : (Res.ok a).bind f = f a := rfl

theorem after_snoc_col {d : Decl V} (hc : d.col = true) {v0 : V} (h0 : first d = some v0) (vs : List V) (v : V) :
    after d (vs ++ [v]) = some (joined d (vs.foldl (joined d) v0) v) := by
  simp [after, hc, h0]

theorem after_snoc_plain {d : Decl V} (hc : d.col = false) (vs : List V) (v : V) : after d (vs ++ [v]) = some v := by
  simp [after, hc]

/-! ### Scala -/

/-- What a class is that does what the declaration says. -/
structure Good (d : Decl V) (C : Cls V) : Prop where
  col : C.col = d.col
  cir : C.cir = d.cir
  init : d.col = true → ∃ v, first d = some v ∧ initialOf d C = .ok v
  comb : d.col = true → C.combine = some (joined d)
  dflt : ∀ v, first d = some v → defaultOf d C = .ok v
  undef : first d = none → defaultOf d C = .stop

theorem good_dump {d : Decl V} (h1 : ∀ e, d.dflt = .simple e → d.col = false ∧ d.loc = false)
    (h2 : ∀ i c, d.dflt = .composite i c → d.col = true ∧ c ≠ none) : ∃ C, dumpScala d = .ok C ∧ Good d C := by
  cases hd : d.dflt with
  | none =>
    cases hc : d.col with
    | true =>
      refine ⟨⟨d.col, d.cir, .none, some d.vInitial, some d.vCombine⟩, by simp [dumpScala, hd, hc], ?_⟩
      constructor <;> simp [first, joined, initialOf, defaultOf, hd, hc]
    | false =>
      refine ⟨⟨d.col, d.cir, .none, .none, .none⟩, by simp [dumpScala, hd, hc], ?_⟩
      cases hr : d.cir <;> constructor <;> simp [first, defaultOf, baseDefault, hd, hc, hr]
  | simple e =>
    obtain ⟨hc, hl⟩ := h1 e hd
    refine ⟨⟨d.col, d.cir, some e, .none, .none⟩, by simp [dumpScala, hd, hc, hl], ?_⟩
    constructor <;> simp [first, defaultOf, hd, hc]
  | composite i c =>
    obtain ⟨hc, hn⟩ := h2 i c hd
    obtain ⟨c, rfl⟩ := Option.ne_none_iff_exists'.1 hn
    refine ⟨⟨d.col, d.cir, .none, some i, some c⟩, by simp [dumpScala, hd, hc], ?_⟩
    constructor <;> simp [first, joined, initialOf, defaultOf, hd, hc]

/-- How an instance stands after the values `vs`. -/
def Stands (d : Decl V) (s : Inst V) (vs : List V) (final : Bool) : Prop :=
  (s.status = .uninitialized ∧ vs = [] ∧ final = false) ∨
  (s.status = .assigned ∧ vs ≠ [] ∧ final = false ∧ after d vs = some s.value) ∨
  (s.status = .evaluated ∧ vs = [] ∧ final = true ∧ after d vs = some s.value)

theorem after_nil (d : Decl V) : after d [] = first d := by
  unfold after
  split
  · cases first d <;> rfl
  · rfl

theorem set_ok {d : Decl V} {C : Cls V} (g : Good d C) (nc : d.cir = false) {s : Inst V} {vs : List V} {final : Bool} (h : Stands d s vs final) (v : V) :
    if final = true then scalaSet d C s v = .stop
    else ∃ s', scalaSet d C s v = .ok s' ∧ Stands d s' (vs ++ [v]) false := by
  have ne : vs ++ [v] ≠ [] := by simp
  have pl : ∀ s w, circSet d C s w = plainSet s w := fun s w => by simp [circSet, g.cir, nc]
  cases hc : d.col with
  | false =>
    have e : scalaSet d C s v = plainSet s v := by simp [scalaSet, g.col, hc, pl]
    rw [e]
    rcases h with ⟨hs, rfl, rfl⟩ | ⟨hs, -, rfl, -⟩ | ⟨hs, -, rfl, -⟩
    · exact ⟨⟨.assigned, v⟩, by simp [plainSet, hs], .inr (.inl ⟨rfl, ne, rfl, after_snoc_plain hc _ v⟩)⟩
    · exact ⟨⟨.assigned, v⟩, by simp [plainSet, hs], .inr (.inl ⟨rfl, ne, rfl, after_snoc_plain hc _ v⟩)⟩
    · simp [plainSet, hs]
  | true =>
    obtain ⟨v0, h0, hi⟩ := g.init hc
    have hb := g.comb hc
    have val : ∀ w, after d vs = some w → vs.foldl (joined d) v0 = w := by
      intro w hw
      simpa [after, hc, h0] using hw
    rcases h with ⟨hs, rfl, rfl⟩ | ⟨hs, -, rfl, ha⟩ | ⟨hs, -, rfl, ha⟩
    · refine ⟨⟨.assigned, joined d v0 v⟩, by simp [scalaSet, initStep, pl, plainSet, g.col, hc, hs, hi, hb, Res.bind],
        .inr (.inl ⟨rfl, ne, rfl, after_snoc_col hc h0 _ v⟩)⟩
    · refine ⟨⟨.assigned, joined d s.value v⟩, by simp [scalaSet, initStep, pl, plainSet, g.col, hc, hs, hb, Res.bind],
        .inr (.inl ⟨rfl, ne, rfl, ?_⟩)⟩
      rw [after_snoc_col hc h0, val _ ha]
    · simp [scalaSet, initStep, pl, plainSet, g.col, hc, hs, hb, Res.bind]

theorem get_ok {d : Decl V} {C : Cls V} (g : Good d C) {s : Inst V} {vs : List V} {final : Bool} (h : Stands d s vs final) :
    (after d vs = none ∧ scalaGet d C s = .stop) ∨
    ∃ s' v, after d vs = some v ∧ scalaGet d C s = .ok (s', v) ∧ Stands d s' vs (final || vs.isEmpty) := by
  rcases h with ⟨hs, rfl, rfl⟩ | ⟨hs, hv, rfl, ha⟩ | ⟨hs, rfl, rfl, ha⟩
  · rw [after_nil]
    have e : ∀ r : Res V, defaultOf d C = r → scalaGet d C s = r.bind fun v => .ok (⟨.evaluated, v⟩, v) := by
      rintro r rfl
      cases hc : d.col with
      | false => simp [scalaGet, initStep, g.col, hc, hs, Res.bind]
      | true =>
        obtain ⟨v0, -, hi⟩ := g.init hc
        simp [scalaGet, initStep, g.col, hc, hs, hi, Res.bind]
    cases hf : first d with
    | none => exact .inl ⟨rfl, e _ (g.undef hf)⟩
    | some v =>
      exact .inr ⟨⟨.evaluated, v⟩, v, rfl, e _ (g.dflt v hf), .inr (.inr ⟨rfl, rfl, rfl, by rw [after_nil]; exact hf⟩)⟩
  · refine .inr ⟨s, s.value, ha, by simp [scalaGet, initStep, hs, Res.bind], .inr (.inl ⟨hs, hv, ?_, ha⟩)⟩
    cases vs with
    | nil => exact absurd rfl hv
    | cons _ _ => rfl
  · exact .inr ⟨s, s.value, ha, by simp [scalaGet, initStep, hs, Res.bind], .inr (.inr ⟨hs, rfl, rfl, ha⟩)⟩

theorem run_scala {d : Decl V} {C : Cls V} (g : Good d C) : ∀ (ops : List (Op V)) (s : Inst V) (vs : List V) (final : Bool),
    (d.cir = false ∨ ∀ v, Op.set v ∉ ops) → Stands d s vs final → runOps (scalaSet d C) (scalaGet d C) s ops = watch d true vs final ops
  | [], s, vs, final, _, h => rfl
  | .set v :: ops, s, vs, final, hn, h => by
    have nc : d.cir = false := hn.resolve_right fun h => h v (by simp)
    have := set_ok g nc h v
    rw [runOps, watch]
    cases final with
    | true =>
      rw [if_pos rfl] at this
      rw [this, if_pos rfl]; rfl
    | false =>
      rw [if_neg (by decide)] at this
      obtain ⟨s', e, h'⟩ := this
      rw [e, if_neg (by decide), okb, run_scala g ops s' _ _ (.inl nc) h']
  | .get :: ops, s, vs, final, hn, h => by
    rw [runOps, watch]
    rcases get_ok g h with ⟨ha, e⟩ | ⟨s', v, ha, e, h'⟩
    · rw [e, ha]; rfl
    · rw [e, ha, okb]
      simp only [Bool.true_and]
      rw [run_scala g ops s' _ _ (hn.imp id fun h v hv => h v (by simp [hv])) h']

/-! ### C++ -/

def StandsCpp (d : Decl V) (s : Inst V) (vs : List V) : Prop :=
  (s.status = .uninitialized ∧ vs = []) ∨ (s.status ≠ .uninitialized ∧ s.value = vs.foldl (cppCombine d) (cppInit d))

theorem cpp_get {d : Decl V} {s : Inst V} {vs : List V} (h : StandsCpp d s vs) :
    ∃ s', cppGet d s = .ok (s', vs.foldl (cppCombine d) (cppInit d)) ∧ StandsCpp d s' vs := by
  rcases h with ⟨hs, rfl⟩ | ⟨hs, hv⟩
  · exact ⟨⟨.unevaluated, cppInit d⟩, by simp [cppGet, hs], .inr ⟨by simp, rfl⟩⟩
  · exact ⟨s, by simp [cppGet, hs, hv], .inr ⟨hs, hv⟩⟩

theorem run_cpp {d : Decl V} (hc : d.col = true) : ∀ (ops : List (Op V)) (s : Inst V) (vs : List V),
    StandsCpp d s vs → runOps (cppSet d) (cppGet d) s ops = watch d false vs false ops
  | [], s, vs, h => rfl
  | .set v :: ops, s, vs, h => by
    obtain ⟨s', e, -⟩ := cpp_get h
    rw [runOps, watch, if_neg (by decide)]
    rw [cppSet, e, okb, okb]
    exact run_cpp hc ops _ _ (.inr ⟨by simp, by simp⟩)
  | .get :: ops, s, vs, h => by
    obtain ⟨s', e, h'⟩ := cpp_get h
    have ha : after d vs = some (vs.foldl (cppCombine d) (cppInit d)) := by
      unfold after first joined cppCombine cppInit
      rw [if_pos hc]
      cases d.dflt with
      | composite i c => cases c <;> simp
      | _ => simp [hc]
    rw [runOps, watch, e, ha, okb]
    simp only [Bool.false_and, Bool.or_false]
    rw [run_cpp hc ops s' vs h']

/-! ### Variables -/

theorem run_var {d : Decl V} {v0 : V} (h0 : varInit d = .ok v0) (vs : List V) : ∃ v, varRun d vs = .ok v ∧ after d vs = some v := by
  refine ⟨vs.foldl (varSet d) v0, by rw [varRun, h0, okb], ?_⟩
  have hf : first d = some v0 := by
    unfold varInit at h0
    unfold first
    cases hd : d.dflt with
    | none =>
      rw [hd] at h0
      simp only at h0 ⊢
      split at h0
      · cases h0; rw [if_pos (by assumption)]
      · cases h0
    | simple e => rw [hd] at h0; cases h0; rfl
    | composite i c =>
      rw [hd] at h0
      cases c with
      | none =>
        simp only at h0
        split at h0
        · cases h0
        · cases h0; rfl
      | some c => cases h0; rfl
  cases hc : d.col with
  | true =>
    have : varSet d = joined d := by
      funext a b
      unfold varSet joined
      rw [if_pos hc]
      cases d.dflt with
      | composite i c => cases c <;> rfl
      | _ => rfl
    simp [after, hc, hf, this]
  | false =>
    have : varSet d = fun _ v => v := by
      funext a b
      simp [varSet, hc]
    rw [this]
    rcases List.eq_nil_or_concat vs with rfl | ⟨l, v, rfl⟩
    · simp [after, hc, hf]
    · simp [after, hc]

end Aps.Start
