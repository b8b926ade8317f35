import Verif.Spec.Objects
/-! # Lemmas: objects of files -/
namespace Aps.Objects

variable {V : Type} {p : Prog V} {rank : Nat → Nat} {null : V}

abbrev Le (e e' : Nat → Nat → Option V) : Prop := ∀ f x v, e f x = some v → e' f x = some v

theorem Means.mono {env env' : Nat → Nat → Option V} (h : Le env env') {e : Exp V} {v : V} (m : Means p env e v) : Means p env' e v := by
  induction m with
  | lit v => exact .lit v
  | use e => exact .use (h _ _ _ e)
  | op _ _ h1 h2 => exact .op h1 h2
  | call _ ih => exact .call ih

theorem Solved.mono {env env' : Nat → Nat → Option V} (h : Le env env') {f : Nat} (s : Solved p env f) : Solved p env' f :=
  fun m hm => let ⟨v, hv, mv⟩ := s m hm; ⟨v, h _ _ _ hv, mv.mono h⟩

structure Inv (p : Prog V) (rank : Nat → Nat) (r : Nat) (s : St V) : Prop where
  solved : ∀ f ∈ s.started, rank f < r → Solved p s.env f
  unset : ∀ f, f ∉ s.started → ∀ x, s.env f x = none

structure Post (p : Prog V) (rank : Nat → Nat) (r : Nat) (s s' : St V) : Prop where
  inv : Inv p rank r s'
  le : Le s.env s'.env
  frame : ∀ f, r ≤ rank f → s'.env f = s.env f ∧ (f ∈ s'.started → f ∈ s.started)
  mono : ∀ f ∈ s.started, f ∈ s'.started

theorem Post.refl {r : Nat} {s : St V} (i : Inv p rank r s) : Post p rank r s s :=
  ⟨i, fun _ _ _ h => h, fun _ _ => ⟨rfl, id⟩, fun _ h => h⟩

theorem Post.trans {r : Nat} {s s' s'' : St V} (h : Post p rank r s s') (h' : Post p rank r s' s'') : Post p rank r s s'' :=
  ⟨h'.inv, fun f x v e => h'.le f x v (h.le f x v e),
   fun f hf => ⟨(h'.frame f hf).1.trans (h.frame f hf).1, fun e => (h.frame f hf).2 ((h'.frame f hf).2 e)⟩,
   fun f hf => h'.mono f (h.mono f hf)⟩

/-- What an evaluator has to do. -/
def EvalOk (p : Prog V) (rank : Nat → Nat) (ev : St V → Exp V → Res (St V × V)) : Prop :=
  ∀ f seen s e s' v, f ∈ s.started → Inv p rank (rank f) s → (∀ x ∈ seen, ∃ w, s.env f x = some w) → Safe p rank f seen e →
    ev s e = .ok (s', v) → Post p rank (rank f) s s' ∧ Means p s'.env e v

theorem initVals_spec {ev : St V → Exp V → Res (St V × V)} (hev : EvalOk p rank ev) (f : Nat) :
    ∀ (ms ds : List (Nat × Exp V)) (seen : List Nat) (s s' : St V), f ∈ s.started → Inv p rank (rank f) s →
    (∀ x ∈ seen, ∃ w, s.env f x = some w) → (∀ m ∈ ds, ∃ v, s.env f m.1 = some v ∧ Means p s.env m.2 v) →
    (∀ m ∈ ms, s.env f m.1 = none) → (ms.map (·.1)).Nodup → InOrder p rank f seen ms → initVals ev f s ms = .ok s' →
    Inv p rank (rank f) s' ∧ Le s.env s'.env ∧ (∀ g ∈ s.started, g ∈ s'.started) ∧
    (∀ g, rank f ≤ rank g → g ≠ f → s'.env g = s.env g ∧ (g ∈ s'.started → g ∈ s.started)) ∧
    ∀ m ∈ ds ++ ms, ∃ v, s'.env f m.1 = some v ∧ Means p s'.env m.2 v
  | [], ds, seen, s, s', hf, i, hs, hd, hu, nd, io, h => by
    cases h
    exact ⟨i, fun _ _ _ h => h, fun _ h => h, fun _ _ _ => ⟨rfl, id⟩, by simpa using hd⟩
  | m :: ms, ds, seen, s, s', hf, i, hs, hd, hu, nd, io, h => by
    obtain ⟨⟨s1, v⟩, h1, h⟩ := Res.bind_eq_ok.1 h
    obtain ⟨po, mv⟩ := hev f seen s m.2 s1 v hf i hs io.1 h1
    obtain ⟨nm, nd⟩ := List.nodup_cons.1 nd
    have fr : s1.env f = s.env f := (po.frame f (Nat.le_refl _)).1
    have un : s1.env f m.1 = none := by rw [fr]; exact hu m (.head _)
    have le : Le s1.env (setVal s1 f m.1 v).env := by
      intro g x w e
      show (if g = f ∧ x = m.1 then some v else s1.env g x) = some w
      rw [if_neg]
      · exact e
      · rintro ⟨rfl, rfl⟩; rw [un] at e; cases e
    have own : (setVal s1 f m.1 v).env f m.1 = some v := by simp [setVal]
    have other : ∀ x, x ≠ m.1 → (setVal s1 f m.1 v).env f x = s1.env f x := fun x hx => by simp [setVal, hx]
    have file : ∀ g, g ≠ f → (setVal s1 f m.1 v).env g = s1.env g := fun g hg => by funext x; simp [setVal, hg]
    have f1 : f ∈ s1.started := po.mono f hf
    have i1 : Inv p rank (rank f) (setVal s1 f m.1 v) :=
      ⟨fun g hg hr => (po.inv.solved g hg hr).mono le, fun g hg x => by
        have : g ≠ f := fun e => hg (e ▸ f1)
        rw [file g this]; exact po.inv.unset g hg x⟩
    obtain ⟨j1, j2, j3, j4, j5⟩ := initVals_spec hev f ms (ds ++ [m]) (m.1 :: seen) (setVal s1 f m.1 v) s' f1 i1
      (fun x hx => by
        rcases List.mem_cons.1 hx with rfl | hx
        · exact ⟨v, own⟩
        · obtain ⟨w, hw⟩ := hs x hx
          exact ⟨w, le _ _ _ (po.le _ _ _ hw)⟩)
      (fun d hd' => by
        rcases List.mem_append.1 hd' with hd' | hd'
        · obtain ⟨w, hw, mw⟩ := hd d hd'
          exact ⟨w, le _ _ _ (po.le _ _ _ hw), (mw.mono po.le).mono le⟩
        · rw [List.mem_singleton] at hd'; subst hd'
          exact ⟨v, own, mv.mono le⟩)
      (fun d hd' => by
        have : d.1 ≠ m.1 := fun e => nm (List.mem_map.2 ⟨d, hd', e⟩)
        rw [other _ this, fr]; exact hu d (.tail _ hd'))
      nd io.2 h
    refine ⟨j1, fun g x w e => j2 g x w (le _ _ _ (po.le _ _ _ e)), fun g hg => j3 g (po.mono g hg), fun g hr hg => ?_, ?_⟩
    · obtain ⟨a, b⟩ := j4 g hr hg
      obtain ⟨c, d⟩ := po.frame g hr
      exact ⟨by rw [a, file g hg, c], fun e => d (b e)⟩
    · intro d hd'
      exact j5 d (by simpa using hd')

theorem touch_spec {ev : St V → Exp V → Res (St V × V)} (hp : Ordered p rank) (hev : EvalOk p rank ev) {r f : Nat} {s s' : St V}
    (hr : rank f < r) (i : Inv p rank r s) (h : touch p ev s f = .ok s') : Post p rank r s s' ∧ f ∈ s'.started := by
  rw [touch] at h
  split at h
  · rename_i hf
    cases h; exact ⟨Post.refl i, hf⟩
  · rename_i hf
    obtain ⟨j1, j2, j3, j4, j5⟩ := initVals_spec hev f (p.files f) [] [] { s with started := f :: s.started } s' (.head _)
      ⟨fun g hg hr' => by
        rcases List.mem_cons.1 hg with rfl | hg
        · exact absurd hr' (Nat.lt_irrefl _)
        · exact i.solved g hg (by omega), fun g hg x => i.unset g (fun e => hg (.tail _ e)) x⟩
      (fun _ h => (by cases h)) (fun _ h => (by cases h)) (fun m _ => i.unset f hf m.1) (hp f).2 (hp f).1 h
    have hf' := j3 f (.head _)
    refine ⟨⟨⟨fun g hg hr' => ?_, j1.unset⟩, j2, fun g hg => ?_, fun g hg => j3 g (.tail _ hg)⟩, hf'⟩
    · rcases Nat.lt_or_ge (rank g) (rank f) with lt | ge
      · exact j1.solved g hg lt
      · by_cases e : g = f
        · subst e; exact fun m hm => j5 m (by simpa using hm)
        · have := (j4 g ge e).2 hg
          exact (i.solved g ((List.mem_cons.1 this).resolve_left e) hr').mono j2
    · have ne : g ≠ f := fun e => by subst e; omega
      obtain ⟨a, b⟩ := j4 g (by omega) ne
      exact ⟨a, fun e => (List.mem_cons.1 (b e)).resolve_left ne⟩

theorem eval_spec (hp : Ordered p rank) : ∀ fuel, EvalOk p rank (eval p null fuel)
  | 0 => by intro f seen s e s' v _ _ _ _ h; cases h
  | fuel + 1 => by
    have ih := eval_spec hp fuel
    intro f seen s e s' v hf i hs sf h
    cases e with
    | lit w => rw [eval] at h; cases h; exact ⟨Post.refl i, .lit _⟩
    | use g x =>
      rw [eval] at h
      obtain ⟨s1, h1, h⟩ := Res.bind_eq_ok.1 h
      cases h
      rcases sf.1 g x (.use g x) with ⟨rfl, hx⟩ | ⟨hr, hx⟩
      · rw [touch, if_pos hf] at h1; cases h1
        obtain ⟨w, hw⟩ := hs x hx
        exact ⟨Post.refl i, .use (by rw [hw]; rfl)⟩
      · obtain ⟨po, hg⟩ := touch_spec hp ih hr i h1
        obtain ⟨m, hm, rfl⟩ := List.mem_map.1 hx
        obtain ⟨w, hw, _⟩ := po.inv.solved g hg hr m hm
        exact ⟨po, .use (by rw [hw]; rfl)⟩
    | op o a b =>
      rw [eval] at h
      obtain ⟨⟨s1, v1⟩, h1, h⟩ := Res.bind_eq_ok.1 h
      obtain ⟨⟨s2, v2⟩, h2, h⟩ := Res.bind_eq_ok.1 h
      cases h
      obtain ⟨p1, m1⟩ := ih f seen s a s1 v1 hf i hs ⟨fun g x u => sf.1 g x (.left u), fun g c => sf.2 g (.left c)⟩ h1
      obtain ⟨p2, m2⟩ := ih f seen s1 b s2 v2 (p1.mono f hf) p1.inv
        (fun x hx => let ⟨w, hw⟩ := hs x hx; ⟨w, p1.le _ _ _ hw⟩)
        ⟨fun g x u => sf.1 g x (.right u), fun g c => sf.2 g (.right c)⟩ h2
      exact ⟨p1.trans p2, .op (m1.mono p2.le) m2⟩
    | call g k =>
      rw [eval] at h
      obtain ⟨s1, h1, h⟩ := Res.bind_eq_ok.1 h
      have p1 : Post p rank (rank f) s s1 := by
        rcases sf.2 g (.here g k) with rfl | hr
        · rw [touch, if_pos hf] at h1; cases h1; exact Post.refl i
        · exact (touch_spec hp ih hr i h1).1
      obtain ⟨p2, m2⟩ := ih f seen s1 (p.fns g k) s' v (p1.mono f hf) p1.inv
        (fun x hx => let ⟨w, hw⟩ := hs x hx; ⟨w, p1.le _ _ _ hw⟩)
        ⟨fun g x u => sf.1 g x (.call u), fun g c => sf.2 g (.call c)⟩ h
      exact ⟨p1.trans p2, .call m2⟩

theorem touchAll_spec (hp : Ordered p rank) (fuel : Nat) : ∀ (fs : List Nat) (s s' : St V), (∀ r, Inv p rank r s) →
    touchAll p null fuel s fs = .ok s' → (∀ r, Inv p rank r s') ∧ (∀ f ∈ s.started, f ∈ s'.started) ∧ ∀ f ∈ fs, f ∈ s'.started
  | [], s, s', i, h => by cases h; exact ⟨i, fun _ h => h, fun _ h => (by cases h)⟩
  | f :: fs, s, s', i, h => by
    obtain ⟨s1, h1, h⟩ := Res.bind_eq_ok.1 h
    have po : ∀ r, rank f < r → Post p rank r s s1 ∧ f ∈ s1.started := fun r hr => touch_spec hp (eval_spec hp fuel) hr (i r) h1
    have i1 : ∀ r, Inv p rank r s1 := fun r => by
      have := (po (rank f + 1 + r) (by omega)).1.inv
      exact ⟨fun g hg hr => this.solved g hg (by omega), this.unset⟩
    obtain ⟨a, b, c⟩ := touchAll_spec hp fuel fs s1 s' i1 h
    have p1 := po (rank f + 1) (by omega)
    refine ⟨a, fun g hg => b g (p1.1.mono g hg), fun g hg => ?_⟩
    rcases List.mem_cons.1 hg with rfl | hg
    · exact b g p1.2
    · exact c g hg

theorem inv_empty (r : Nat) : Inv p rank r (empty : St V) := ⟨fun _ h => (by cases h), fun _ _ _ => rfl⟩

end Aps.Objects

namespace Aps.Objects

/-! ### Ends -/

variable {V : Type} {p : Prog V} {rank : Nat → Nat} {null : V}

def More (s s' : St V) : Prop := ∀ f ∈ s.started, f ∈ s'.started

/-- With enough fuel the object of a file gets initialized. -/
def Touches (p : Prog V) (null : V) (f : Nat) : Prop :=
  ∃ n, ∀ fuel, n ≤ fuel → ∀ s, ∃ s', touch p (eval p null fuel) s f = .ok s' ∧ More s s' ∧ f ∈ s'.started

def Evals (p : Prog V) (null : V) (f : Nat) (e : Exp V) : Prop :=
  ∃ n, ∀ fuel, n ≤ fuel → ∀ s, f ∈ s.started → ∃ r, eval p null fuel s e = .ok r ∧ More s r.1

theorem touch_own {ev : St V → Exp V → Res (St V × V)} {s : St V} {f : Nat} (h : f ∈ s.started) : touch p ev s f = .ok s := by
  rw [touch, if_pos h]

theorem touch_near {f g : Nat} (h : g = f ∨ Touches p null g) : ∃ n, ∀ fuel, n ≤ fuel → ∀ s, f ∈ s.started →
    ∃ s', touch p (eval p null fuel) s g = .ok s' ∧ More s s' := by
  rcases h with rfl | ⟨n, h⟩
  · exact ⟨0, fun fuel _ s hs => ⟨s, touch_own hs, fun _ h => h⟩⟩
  · exact ⟨n, fun fuel hf s _ => let ⟨s', h, m, _⟩ := h fuel hf s; ⟨s', h, m⟩⟩

theorem eval_ends {f : Nat} {e : Exp V} (h : Finite p e) (hu : ∀ g x, Uses p e g x → g = f ∨ Touches p null g)
    (hc : ∀ g, Calls p e g → g = f ∨ Touches p null g) : Evals p null f e := by
  induction h with
  | lit v =>
    refine ⟨1, fun fuel hf s _ => ?_⟩
    obtain ⟨k, rfl⟩ : ∃ k, fuel = k + 1 := ⟨fuel - 1, by omega⟩
    exact ⟨(s, v), by rw [eval], fun _ h => h⟩
  | use g x =>
    obtain ⟨n, hn⟩ := touch_near (hu g x (.use g x))
    refine ⟨n + 1, fun fuel hf s hs => ?_⟩
    obtain ⟨k, rfl⟩ : ∃ k, fuel = k + 1 := ⟨fuel - 1, by omega⟩
    obtain ⟨s', h, m⟩ := hn k (by omega) s hs
    exact ⟨_, by rw [eval, h, Res.bind], m⟩
  | @op o a b _ _ iha ihb =>
    obtain ⟨n, hn⟩ := iha (fun g x u => hu g x (.left u)) (fun g c => hc g (.left c))
    obtain ⟨m, hm⟩ := ihb (fun g x u => hu g x (.right u)) (fun g c => hc g (.right c))
    refine ⟨max n m + 1, fun fuel hf s hs => ?_⟩
    obtain ⟨k, rfl⟩ : ∃ k, fuel = k + 1 := ⟨fuel - 1, by omega⟩
    obtain ⟨r, h1, m1⟩ := hn k (by omega) s hs
    obtain ⟨q, h2, m2⟩ := hm k (by omega) r.1 (m1 f hs)
    exact ⟨(q.1, o r.2 q.2), by rw [eval, h1]; dsimp only [Res.bind]; rw [h2], fun g hg => m2 g (m1 g hg)⟩
  | @call g i _ ih =>
    obtain ⟨n, hn⟩ := touch_near (hc g (.here g i))
    obtain ⟨m, hm⟩ := ih (fun g x u => hu g x (.call u)) (fun g c => hc g (.call c))
    refine ⟨max n m + 1, fun fuel hf s hs => ?_⟩
    obtain ⟨k, rfl⟩ : ∃ k, fuel = k + 1 := ⟨fuel - 1, by omega⟩
    obtain ⟨s', h1, m1⟩ := hn k (by omega) s hs
    obtain ⟨r, h2, m2⟩ := hm k (by omega) s' (m1 f hs)
    exact ⟨r, by rw [eval, h1, Res.bind, h2], fun g hg => m2 g (m1 g hg)⟩

theorem initVals_ends {f : Nat} : ∀ {ms : List (Nat × Exp V)}, (∀ m ∈ ms, Evals p null f m.2) →
    ∃ n, ∀ fuel, n ≤ fuel → ∀ s, f ∈ s.started → ∃ s', initVals (eval p null fuel) f s ms = .ok s' ∧ More s s'
  | [], _ => ⟨0, fun _ _ s _ => ⟨s, rfl, fun _ h => h⟩⟩
  | m :: ms, h => by
    obtain ⟨n, hn⟩ := h m (.head _)
    obtain ⟨k, hk⟩ := initVals_ends fun x hx => h x (.tail _ hx)
    refine ⟨max n k, fun fuel hf s hs => ?_⟩
    obtain ⟨r, h1, m1⟩ := hn fuel (by omega) s hs
    obtain ⟨s', h2, m2⟩ := hk fuel (by omega) (setVal r.1 f m.1 r.2) (m1 f hs)
    exact ⟨s', by rw [initVals, h1, Res.bind, h2], fun g hg => m2 g (m1 g hg)⟩

theorem inOrder_safe {f : Nat} : ∀ {ms : List (Nat × Exp V)} {seen : List Nat}, InOrder p rank f seen ms →
    ∀ m ∈ ms, ∃ seen', Safe p rank f seen' m.2
  | _ :: _, seen, h, m, hm => by
    rcases List.mem_cons.1 hm with rfl | hm
    · exact ⟨seen, h.1⟩
    · exact inOrder_safe h.2 m hm

theorem touch_ends (hp : Ordered p rank) (hf : ∀ f, ∀ m ∈ p.files f, Finite p m.2) : ∀ (r f : Nat), rank f < r → Touches p null f
  | 0, _, h => absurd h (Nat.not_lt_zero _)
  | r + 1, f, h => by
    have ih : ∀ g, rank g < rank f → Touches p null g := fun g hg => touch_ends hp hf r g (by omega)
    obtain ⟨n, hn⟩ := initVals_ends (p := p) (null := null) (f := f) (ms := p.files f) fun m hm => by
      obtain ⟨seen, sf⟩ := inOrder_safe (hp f).1 m hm
      refine eval_ends (hf f m hm) (fun g x u => ?_) fun g c => (sf.2 g c).imp_right (ih g)
      rcases sf.1 g x u with ⟨e, _⟩ | ⟨lt, _⟩
      · exact .inl e
      · exact .inr (ih g lt)
    refine ⟨n, fun fuel hfu s => ?_⟩
    rw [touch]
    split
    · rename_i hs; exact ⟨s, rfl, fun _ h => h, hs⟩
    · obtain ⟨s', h1, m⟩ := hn fuel hfu { s with started := f :: s.started } (.head _)
      exact ⟨s', h1, fun g hg => m g (.tail _ hg), m f (.head _)⟩

theorem touchAll_ends (hp : Ordered p rank) (hf : ∀ f, ∀ m ∈ p.files f, Finite p m.2) : ∀ (fs : List Nat),
    ∃ n, ∀ fuel, n ≤ fuel → ∀ s : St V, ∃ s', touchAll p null fuel s fs = .ok s'
  | [] => ⟨0, fun _ _ s => ⟨s, rfl⟩⟩
  | f :: fs => by
    obtain ⟨n, hn⟩ := touch_ends (null := null) hp hf (rank f + 1) f (Nat.lt_succ_self _)
    obtain ⟨k, hk⟩ := touchAll_ends hp hf fs
    refine ⟨max n k, fun fuel h s => ?_⟩
    obtain ⟨s1, h1, _⟩ := hn fuel (by omega) s
    obtain ⟨s', h2⟩ := hk fuel (by omega) s1
    exact ⟨s', by rw [touchAll, h1, Res.bind, h2]⟩

end Aps.Objects
