import Verif.Proofs.EdgeGen
set_option linter.unusedVariables false
/-! The recorded dependencies as a graph. -/
namespace Aps.Gen
open Aps.Dnc Aps.Oag

/-- The call adds an edge from `i` to `j` of kind `k`. -/
inductive Gives (env : Env) (x : Call) : Nat → Nat → Dep → Prop
  | base {i j} : vertexInstance env x.src env.base = some i → vertexInstance env x.snk env.base = some j → Gives env x i j x.kind
  | fwd {f i j} : x.kind &&& MAYBE_CARRYING ≠ 0 → f ∈ env.fibers → f ≠ env.base → env.isReverse f = false →
      vertexInstance env x.src f = some i → vertexInstance env x.snk f = some j → Gives env x i j (x.kind &&& ~~~NOT_JUST_FIBER)
  | bwd {f i j} : x.kind &&& MAYBE_CARRYING ≠ 0 → f ∈ env.fibers → f ≠ env.base → env.isReverse f = true →
      vertexInstance env x.src f = some i → vertexInstance env x.snk f = some j → Gives env x j i (x.kind &&& ~~~NOT_JUST_FIBER)

theorem getInstance_lt {env : Env} {a f : Nat} {n : Option Nat} {i : Nat} (h : getInstance env a f n = some i) : i < env.keys.length := by
  unfold getInstance at h
  have := List.mem_of_find?_eq_some h
  simpa using this

theorem vertexInstance_lt {env : Env} {v : Vertex} {f i : Nat} (h : vertexInstance env v f = some i) : i < env.keys.length := by
  unfold vertexInstance at h
  split at h
  · cases h
  · exact getInstance_lt h

/-- a call with a condition that can hold and a kind that is a dependency -/
structure CallOk (x : Call) : Prop where
  cond : ∃ σ, Sat σ x.cond
  kind : x.kind.getLsbD 0 = true

/-- What a step of adding edges does: `P` tells the edges added. -/
structure Added (n : Nat) (P : Nat → Nat → Cond → Dep → Prop) (g g' : Aug) : Prop where
  size : g'.n = n
  wf : GWf g'
  built : ∀ attrs links, Built n attrs links g → Built n attrs links g'
  exact : ∀ σ a b, a < n → b < n → ∀ t, (kindAt σ (g'.cell a b)).getLsbD t = true ↔
    (kindAt σ (g.cell a b)).getLsbD t = true ∨ ∃ c k, P a b c k ∧ Sat σ c ∧ k.getLsbD t = true
  keep : ∀ a b, a < n → b < n → ∀ c k, Ent (g.cell a b) c k → Ent (g'.cell a b) c k
  ent : ∀ a b, a < n → b < n → ∀ c k, P a b c k → Ent (g'.cell a b) c k

theorem Added.none {n : Nat} {P} {g : Aug} (hn : g.n = n) (w : GWf g) (hP : ∀ a b c k, ¬ P a b c k) : Added n P g g :=
  ⟨hn, w, fun _ _ h => h, fun σ a b _ _ t => ⟨fun h => .inl h, by
    rintro (h | ⟨c, k, h, _⟩)
    · exact h
    · exact absurd h (hP _ _ _ _)⟩, fun _ _ _ _ _ _ h => h, fun _ _ _ _ _ _ h => absurd h (hP _ _ _ _)⟩

theorem Added.comp {n : Nat} {P Q R : Nat → Nat → Cond → Dep → Prop} {g g' g'' : Aug} (h1 : Added n P g g') (h2 : Added n Q g' g'')
    (h : ∀ a b c k, R a b c k ↔ P a b c k ∨ Q a b c k) : Added n R g g'' :=
  ⟨h2.size, h2.wf, fun at' l hb => h2.built at' l (h1.built at' l hb), fun σ a b ha hb t => by
    rw [h2.exact σ a b ha hb t, h1.exact σ a b ha hb t]
    constructor
    · rintro ((h0 | ⟨c, k, hp, hs⟩) | ⟨c, k, hp, hs⟩)
      · exact .inl h0
      · exact .inr ⟨c, k, (h ..).2 (.inl hp), hs⟩
      · exact .inr ⟨c, k, (h ..).2 (.inr hp), hs⟩
    · rintro (h0 | ⟨c, k, hp, hs⟩)
      · exact .inl (.inl h0)
      · rcases (h ..).1 hp with hp | hp
        · exact .inl (.inr ⟨c, k, hp, hs⟩)
        · exact .inr ⟨c, k, hp, hs⟩,
    fun a b ha hb c k h0 => h2.keep a b ha hb c k (h1.keep a b ha hb c k h0),
    fun a b ha hb c k hp => ((h ..).1 hp).elim (fun hp => h2.keep a b ha hb c k (h1.ent a b ha hb c k hp)) (h2.ent a b ha hb c k)⟩

theorem Added.congr {n : Nat} {P Q : Nat → Nat → Cond → Dep → Prop} {g g' : Aug} (h1 : Added n P g g') (h : ∀ a b c k, P a b c k ↔ Q a b c k) :
    Added n Q g g' :=
  ⟨h1.size, h1.wf, h1.built, fun σ a b ha hb t => by rw [h1.exact σ a b ha hb t]; simp only [h],
    h1.keep, fun a b ha hb c k hq => h1.ent a b ha hb c k ((h ..).2 hq)⟩

theorem addEdge_added {n : Nat} {g : Aug} (hn : g.n = n) (w : GWf g) {i j : Nat} (hi : i < n) (hj : j < n) {c : Cond} (hc : ∃ σ, Sat σ c)
    {k : Dep} (hk : k.getLsbD 0 = true) :
    ∃ g', addEdgeToGraph i j c k g = .ok g' ∧ Added n (fun a b c' k' => a = i ∧ b = j ∧ c' = c ∧ k' = k) g g' := by
  obtain ⟨σ, hσ⟩ := hc
  obtain ⟨g', h1, h2, h3, h4, h5, h6⟩ := addEdgeToGraph_spec w (by omega : i < g.n) (by omega : j < g.n) (ok_of_sat hσ)
    (dep_ne_zero.2 ⟨0, hk⟩)
  refine ⟨g', h1, by rw [h3.n, hn], h2, ?_, ?_, fun a b ha hb => h3.mono a b (by omega) (by omega), ?_⟩
  rotate_left 2
  · rintro a b ha hb _ _ ⟨rfl, rfl, rfl, rfl⟩
    exact h4
  · intro attrs links hb
    exact .add i j c k hb hi hj ⟨σ, hσ⟩ (dep_ne_zero.2 ⟨0, hk⟩) h1
  · intro τ a b ha hb t
    rw [h5 τ a b (by omega) (by omega) t]
    constructor
    · rintro (h | ⟨rfl, rfl, h7, h8⟩)
      · exact .inl h
      · exact .inr ⟨c, k, ⟨rfl, rfl, rfl, rfl⟩, h7, h8⟩
    · rintro (h | ⟨_, _, ⟨rfl, rfl, rfl, rfl⟩, h7, h8⟩)
      · exact .inl h
      · exact .inr ⟨rfl, rfl, h7, h8⟩

theorem fiberKind {k : Dep} (hk : k.getLsbD 0 = true) : (k &&& ~~~NOT_JUST_FIBER).getLsbD 0 = true := by
  rw [andnot_getLsbD, hk]
  have := bit2 (i := 0)
  simp at this
  simp [this]

/-- the edges of the loop over the fibers -/
def FGives (env : Env) (x : Call) (kind : Dep) (fs : List Nat) (a b : Nat) (c : Cond) (k : Dep) : Prop :=
  c = x.cond ∧ k = kind ∧ ∃ f ∈ fs, f ≠ env.base ∧
    ((env.isReverse f = false ∧ vertexInstance env x.src f = some a ∧ vertexInstance env x.snk f = some b) ∨
     (env.isReverse f = true ∧ vertexInstance env x.src f = some b ∧ vertexInstance env x.snk f = some a))

theorem FGives.cons_iff {env x kind f fs a b c k} : FGives env x kind (f :: fs) a b c k ↔
    FGives env x kind [f] a b c k ∨ FGives env x kind fs a b c k := by
  unfold FGives
  simp only [List.mem_cons, List.not_mem_nil, or_false]
  constructor
  · rintro ⟨h1, h2, f', rfl | h, h3⟩
    · exact .inl ⟨h1, h2, f', rfl, h3⟩
    · exact .inr ⟨h1, h2, f', h, h3⟩
  · rintro (⟨h1, h2, f', rfl, h3⟩ | ⟨h1, h2, f', h, h3⟩)
    · exact ⟨h1, h2, f', .inl rfl, h3⟩
    · exact ⟨h1, h2, f', .inr h, h3⟩

theorem addFiberEdges_added {env : Env} {x : Call} (hx : ∃ σ, Sat σ x.cond) {kind : Dep} (hk : kind.getLsbD 0 = true) :
    ∀ (fs : List Nat) (g : Aug), g.n = env.keys.length → GWf g →
    ∃ g', addFiberEdges env x kind fs g = .ok g' ∧ Added env.keys.length (FGives env x kind fs) g g'
  | [], g, hn, w => ⟨g, rfl, Added.none hn w (by rintro a b c k ⟨_, _, f, hf, _⟩; cases hf)⟩
  | f :: fs, g, hn, w => by
    have skip : (∀ a b c k, ¬ FGives env x kind [f] a b c k) → ∃ g', addFiberEdges env x kind fs g = .ok g' ∧
        Added env.keys.length (FGives env x kind (f :: fs)) g g' := by
      intro hno
      obtain ⟨g', h1, h2⟩ := addFiberEdges_added hx hk fs g hn w
      exact ⟨g', h1, h2.congr fun a b c k => by rw [FGives.cons_iff]; simp [hno]⟩
    unfold addFiberEdges
    split
    · rename_i i1 i2 e1 e2
      split
      · rename_i hb
        exact skip (by rintro a b c k ⟨_, _, f', hf, hne, _⟩; simp at hf; exact hne (hf.trans hb))
      · rename_i hb
        split
        · rename_i hr
          obtain ⟨g1, h1, h2⟩ := addEdge_added hn w (vertexInstance_lt e2) (vertexInstance_lt e1) hx hk
          obtain ⟨g2, h3, h4⟩ := addFiberEdges_added hx hk fs g1 h2.size h2.wf
          refine ⟨g2, by rw [h1]; exact h3, h2.comp h4 fun a b c k => ?_⟩
          rw [FGives.cons_iff]
          apply or_congr_left
          unfold FGives
          simp only [List.mem_singleton]
          constructor
          · rintro ⟨rfl, rfl, f', rfl, _, ⟨h, _⟩ | ⟨_, h5, h6⟩⟩
            · rw [hr] at h; cases h
            · rw [e1] at h5; rw [e2] at h6; cases h5; cases h6; exact ⟨rfl, rfl, rfl, rfl⟩
          · rintro ⟨rfl, rfl, rfl, rfl⟩
            exact ⟨rfl, rfl, f, rfl, hb, .inr ⟨hr, e1, e2⟩⟩
        · rename_i hr
          simp at hr
          obtain ⟨g1, h1, h2⟩ := addEdge_added hn w (vertexInstance_lt e1) (vertexInstance_lt e2) hx hk
          obtain ⟨g2, h3, h4⟩ := addFiberEdges_added hx hk fs g1 h2.size h2.wf
          refine ⟨g2, by rw [h1]; exact h3, h2.comp h4 fun a b c k => ?_⟩
          rw [FGives.cons_iff]
          apply or_congr_left
          unfold FGives
          simp only [List.mem_singleton]
          constructor
          · rintro ⟨rfl, rfl, f', rfl, _, ⟨_, h5, h6⟩ | ⟨h, _⟩⟩
            · rw [e1] at h5; rw [e2] at h6; cases h5; cases h6; exact ⟨rfl, rfl, rfl, rfl⟩
            · rw [hr] at h; cases h
          · rintro ⟨rfl, rfl, rfl, rfl⟩
            exact ⟨rfl, rfl, f, rfl, hb, .inl ⟨hr, e1, e2⟩⟩
    · rename_i hno
      refine skip ?_
      rintro a b c k ⟨_, _, f', hf, _, ⟨_, h5, h6⟩ | ⟨_, h5, h6⟩⟩
      · simp at hf; subst hf; exact hno _ _ h5 h6
      · simp at hf; subst hf; exact hno _ _ h5 h6

theorem addEdges_added {env : Env} {x : Call} (hx : CallOk x) (g : Aug) (hn : g.n = env.keys.length) (w : GWf g) :
    ∃ g', addEdges env x g = .ok g' ∧ Added env.keys.length (fun a b c k => c = x.cond ∧ Gives env x a b k) g g' := by
  have first : ∃ g1, addBaseEdge env x g = .ok g1 ∧ Added env.keys.length (fun a b c k => c = x.cond ∧ k = x.kind ∧
        vertexInstance env x.src env.base = some a ∧ vertexInstance env x.snk env.base = some b) g g1 := by
    unfold addBaseEdge
    split
    · rename_i i j e1 e2
      obtain ⟨g1, h1, h2⟩ := addEdge_added hn w (vertexInstance_lt e1) (vertexInstance_lt e2) hx.cond hx.kind
      refine ⟨g1, h1, h2.congr fun a b c k => ?_⟩
      constructor
      · rintro ⟨rfl, rfl, rfl, rfl⟩; exact ⟨rfl, rfl, e1, e2⟩
      · rintro ⟨rfl, rfl, h5, h6⟩; rw [e1] at h5; rw [e2] at h6; cases h5; cases h6; exact ⟨rfl, rfl, rfl, rfl⟩
    · rename_i hno
      exact ⟨g, rfl, Added.none hn w (by rintro a b c k ⟨_, _, h5, h6⟩; exact hno _ _ h5 h6)⟩
  obtain ⟨g1, h1, h2⟩ := first
  unfold addEdges
  rw [h1]
  simp only [Res.ok_bind]
  split
  · rename_i hc
    refine ⟨g1, rfl, h2.congr fun a b c k => ?_⟩
    constructor
    · rintro ⟨rfl, rfl, h5, h6⟩; exact ⟨rfl, .base h5 h6⟩
    · rintro ⟨rfl, h⟩
      cases h with
      | base h5 h6 => exact ⟨rfl, rfl, h5, h6⟩
      | fwd h _ => exact absurd hc h
      | bwd h _ => exact absurd hc h
  · rename_i hc
    obtain ⟨g2, h3, h4⟩ := addFiberEdges_added hx.cond (fiberKind hx.kind) env.fibers g1 h2.size h2.wf
    refine ⟨g2, h3, h2.comp h4 fun a b c k => ?_⟩
    constructor
    · rintro ⟨rfl, h⟩
      cases h with
      | base h5 h6 => exact .inl ⟨rfl, rfl, h5, h6⟩
      | fwd _ h7 h8 h9 h5 h6 => exact .inr ⟨rfl, rfl, _, h7, h8, .inl ⟨h9, h5, h6⟩⟩
      | bwd _ h7 h8 h9 h5 h6 => exact .inr ⟨rfl, rfl, _, h7, h8, .inr ⟨h9, h5, h6⟩⟩
    · rintro (⟨rfl, rfl, h5, h6⟩ | ⟨rfl, rfl, f, h7, h8, ⟨h9, h5, h6⟩ | ⟨h9, h5, h6⟩⟩)
      · exact ⟨rfl, .base h5 h6⟩
      · exact ⟨rfl, .fwd hc h7 h8 h9 h5 h6⟩
      · exact ⟨rfl, .bwd hc h7 h8 h9 h5 h6⟩

theorem runCalls_added {env : Env} : ∀ (cs : List Call), (∀ x ∈ cs, CallOk x) → ∀ (g : Aug), g.n = env.keys.length → GWf g →
    ∃ g', runCalls env cs g = .ok g' ∧ Added env.keys.length (fun a b c k => ∃ x ∈ cs, c = x.cond ∧ Gives env x a b k) g g'
  | [], _, g, hn, w => ⟨g, rfl, Added.none hn w (by rintro a b c k ⟨x, hx, _⟩; cases hx)⟩
  | x :: cs, hok, g, hn, w => by
    obtain ⟨g1, h1, h2⟩ := addEdges_added (hok x (by simp)) g hn w
    obtain ⟨g2, h3, h4⟩ := runCalls_added cs (fun y hy => hok y (by simp [hy])) g1 h2.size h2.wf
    refine ⟨g2, by unfold runCalls; rw [h1]; exact h3, h2.comp h4 fun a b c k => ?_⟩
    simp only [List.mem_cons, exists_eq_or_imp]

/-! ## instances -/

theorem find_range {n : Nat} {p : Nat → Bool} {i : Nat} (hi : i < n) (hp : p i = true) (hu : ∀ j, j < n → p j = true → j = i) :
    (List.range n).find? p = some i := by
  cases h : (List.range n).find? p with
  | none =>
    have := List.find?_eq_none.1 h i (by simpa using hi)
    exact absurd hp this
  | some j =>
    have h1 := List.find?_some h
    have h2 : j < n := by simpa using List.mem_of_find?_eq_some h
    rw [hu j h2 h1]

theorem getInstance_iff {env : Env} (ok : env.Ok) {a f : Nat} {n : Option Nat} {i : Nat} :
    getInstance env a f n = some i ↔ env.keys[i]? = some ⟨a, if f = env.base then none else some f, n⟩ := by
  constructor
  · intro h
    have := List.find?_some h
    simp at this
    exact this.2
  · intro h
    unfold getInstance
    apply find_range
    · exact (List.getElem?_eq_some_iff.1 h).1
    · simp only [Bool.and_eq_true, decide_eq_true_eq]
      exact ⟨ok.start i _ h, h⟩
    · intro j hj hp
      simp only [Bool.and_eq_true, decide_eq_true_eq] at hp
      have h2 := hp.2
      rw [← h] at h2
      exact (List.getElem?_inj hj ok.nodup).1 h2

theorem modFiber_base {env : Env} (ok : env.Ok) {m : List Nat} {f g : Nat} (h : modFiber env m f = some g) (hg : g = env.base) :
    m = [] ∧ f = env.base := by
  cases m with
  | nil => simp [modFiber] at h; exact ⟨rfl, h.trans hg⟩
  | cons x m =>
    unfold modFiber at h
    split at h
    · cases h
    · exact absurd (hg ▸ h) (ok.base _ _)

theorem vertexInstance_base {env : Env} (ok : env.Ok) {v : Vertex} {f i : Nat} {p : Place} (hp : env.Is i p) :
    vertexInstance env v f = some i ↔ v.mods = [] ∧ f = env.base ∧ (v.attr, v.node) = p := by
  unfold vertexInstance
  constructor
  · intro h
    split at h
    · cases h
    · rename_i g hg
      rw [getInstance_iff ok] at h
      unfold Env.Is at hp
      rw [hp] at h
      simp only [Option.some.injEq, Key.mk.injEq] at h
      obtain ⟨h1, h2, h3⟩ := h
      by_cases hb : g = env.base
      · obtain ⟨h4, h5⟩ := modFiber_base ok hg hb
        exact ⟨h4, h5, by rw [← h1, ← h3]⟩
      · rw [if_neg hb] at h2; cases h2
  · rintro ⟨h1, rfl, rfl⟩
    rw [h1]
    simp only [modFiber]
    rw [getInstance_iff ok, if_pos rfl]
    exact hp

theorem vertexInstance_at {env : Env} (ok : env.Ok) {v : Vertex} {f i : Nat} : vertexInstance env v f = some i ↔ env.At i v f := by
  unfold vertexInstance Env.At
  split
  · rename_i h; simp [h]
  · rename_i g h
    rw [getInstance_iff ok]
    simp [h]

theorem gives_base {env : Env} (ok : env.Ok) {x : Call} {i j : Nat} {p q : Place} (hp : env.Is i p) (hq : env.Is j q) {k : Dep} :
    Gives env x i j k ↔ x.src = ⟨p.1, p.2, []⟩ ∧ x.snk = ⟨q.1, q.2, []⟩ ∧ k = x.kind := by
  constructor
  · intro h
    cases h with
    | base h1 h2 =>
      rw [vertexInstance_base ok hp] at h1
      rw [vertexInstance_base ok hq] at h2
      refine ⟨?_, ?_, rfl⟩
      · rw [← h1.2.2]; simp only; rw [← h1.1]
      · rw [← h2.2.2]; simp only; rw [← h2.1]
    | fwd _ _ h3 _ h1 _ => rw [vertexInstance_base ok hp] at h1; exact absurd h1.2.1 h3
    | bwd _ _ h3 _ h1 _ => rw [vertexInstance_base ok hq] at h1; exact absurd h1.2.1 h3
  · rintro ⟨h1, h2, rfl⟩
    refine .base ?_ ?_
    · rw [vertexInstance_base ok hp, h1]; exact ⟨rfl, rfl, rfl⟩
    · rw [vertexInstance_base ok hq, h2]; exact ⟨rfl, rfl, rfl⟩

end Aps.Gen
