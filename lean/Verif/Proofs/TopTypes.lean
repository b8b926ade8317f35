import Verif.Spec.TopTypes
/-! # Lemmas: top-level types -/
namespace Aps.TopTypes

structure Inv (defs : Nat → Option Def) (s : St) : Prop where
  loc : ∀ k a, s.loc k = some a → (∃ j, defs k = some (.same j) ∧ s.loc j = some a) ∨
    ∃ m args as, defs k = some (.inst m args) ∧ s.heap[a]? = some ⟨some m, as⟩ ∧ args.map s.loc = as.map some
  dist : ∀ k k' a m args m' args', defs k = some (.inst m args) → defs k' = some (.inst m' args') →
    s.loc k = some a → s.loc k' = some a → k = k'

structure Le (s s' : St) : Prop where
  heap : ∀ (a : Nat) (o : Obj), s.heap[a]? = some o → s'.heap[a]? = some o
  loc : ∀ k a, s.loc k = some a → s'.loc k = some a
  glob : s'.glob = s.glob

theorem Le.rfl' (s : St) : Le s s := ⟨fun _ _ h => h, fun _ _ h => h, rfl⟩

theorem Le.trans {s s' s'' : St} (h : Le s s') (h' : Le s' s'') : Le s s'' :=
  ⟨fun a o e => h'.heap a o (h.heap a o e), fun k a e => h'.loc k a (h.loc k a e), h'.glob.trans h.glob⟩

theorem map_le {s s' : St} (h : Le s s') {args : List Nat} {as : List Nat} (e : args.map s.loc = as.map some) :
    args.map s'.loc = as.map some := by
  rw [← e]
  refine List.map_congr_left fun j hj => ?_
  have : s.loc j ∈ as.map some := e ▸ List.mem_map_of_mem hj
  obtain ⟨b, _, hb⟩ := List.mem_map.1 this
  rw [← hb]; exact h.loc j b hb.symm

theorem heap_append {l : List Obj} {o : Obj} {a : Nat} {x : Obj} (h : l[a]? = some x) : (l ++ [o])[a]? = some x := by
  have : a < l.length := by
    rcases Nat.lt_or_ge a l.length with h' | h'
    · exact h'
    · rw [List.getElem?_eq_none h'] at h; cases h
  rw [List.getElem?_append_left this]; exact h

theorem lt_of_heap {l : List Obj} {a : Nat} {x : Obj} (h : l[a]? = some x) : a < l.length := by
  rcases Nat.lt_or_ge a l.length with h' | h'
  · exact h'
  · rw [List.getElem?_eq_none h'] at h; cases h

/-- What a call does. -/
structure Step (defs : Nat → Option Def) (busy : List Nat) (s s' : St) : Prop where
  inv : Inv defs s'
  le : Le s s'
  busy : ∀ b ∈ busy, s'.loc b = none

theorem le_setLoc {s : St} {k a : Nat} (h : s.loc k = none) : Le s (setLoc s k a) := by
  refine ⟨fun _ _ h => h, fun j b e => ?_, rfl⟩
  by_cases hj : j = k
  · subst hj; rw [h] at e; cases e
  · simp only [setLoc, if_neg hj]; exact e

theorem le_alloc (s : St) (o : Obj) : Le s (alloc s o).1 := ⟨fun _ _ h => heap_append h, fun _ _ h => h, rfl⟩

theorem inv_same {defs : Nat → Option Def} {s : St} {k j a : Nat} (i : Inv defs s) (d : defs k = some (.same j))
    (hk : s.loc k = none) (hj : s.loc j = some a) : Inv defs (setLoc s k a) := by
  have le : Le s (setLoc s k a) := le_setLoc hk
  constructor
  · intro l b hl
    by_cases e : l = k
    · subst e
      simp only [setLoc, if_true] at hl; cases hl
      exact .inl ⟨j, d, le.loc j a hj⟩
    · simp only [setLoc, if_neg e] at hl
      rcases i.loc l b hl with ⟨x, dx, hx⟩ | ⟨m, args, as, dx, hx, hm⟩
      · exact .inl ⟨x, dx, le.loc x b hx⟩
      · exact .inr ⟨m, args, as, dx, hx, map_le le hm⟩
  · intro x x' b m args m' args' dx dx' hx hx'
    have n : x ≠ k := fun e => by subst e; rw [d] at dx; cases dx
    have n' : x' ≠ k := fun e => by subst e; rw [d] at dx'; cases dx'
    simp only [setLoc, if_neg n] at hx
    simp only [setLoc, if_neg n'] at hx'
    exact i.dist x x' b m args m' args' dx dx' hx hx'

theorem inv_inst {defs : Nat → Option Def} {s : St} {k m : Nat} {args as : List Nat} (i : Inv defs s)
    (d : defs k = some (.inst m args)) (hk : s.loc k = none) (hm : args.map s.loc = as.map some) :
    Inv defs (setLoc (alloc s ⟨some m, as⟩).1 k (alloc s ⟨some m, as⟩).2) := by
  have le : Le s (setLoc (alloc s ⟨some m, as⟩).1 k (alloc s ⟨some m, as⟩).2) := (le_alloc s _).trans (le_setLoc hk)
  have fresh : ∀ x m args, defs x = some (.inst m args) → s.loc x ≠ some s.heap.length := by
    intro x m args dx e
    rcases i.loc x _ e with ⟨_, dy, _⟩ | ⟨_, _, _, _, h, _⟩
    · rw [dx] at dy; cases dy
    · exact absurd (lt_of_heap h) (Nat.lt_irrefl _)
  constructor
  · intro l b hl
    by_cases e : l = k
    · subst e
      simp only [setLoc, if_true] at hl; cases hl
      refine .inr ⟨m, args, as, d, ?_, map_le le hm⟩
      simp [setLoc, alloc]
    · simp only [setLoc, if_neg e] at hl
      rcases i.loc l b hl with ⟨x, dx, hx⟩ | ⟨m, args, as, dx, hx, hm⟩
      · exact .inl ⟨x, dx, le.loc x b hx⟩
      · exact .inr ⟨m, args, as, dx, le.heap _ _ hx, map_le le hm⟩
  · intro x x' b m1 args1 m2 args2 dx dx' hx hx'
    by_cases e : x = k <;> by_cases e' : x' = k
    · rw [e, e']
    · subst e
      simp only [setLoc, alloc, if_true] at hx; cases hx
      simp only [setLoc, alloc, if_neg e'] at hx'
      exact absurd hx' (fresh _ _ _ dx')
    · subst e'
      simp only [setLoc, alloc, if_true] at hx'; cases hx'
      simp only [setLoc, alloc, if_neg e] at hx
      exact absurd hx (fresh _ _ _ dx)
    · simp only [setLoc, alloc, if_neg e] at hx
      simp only [setLoc, alloc, if_neg e'] at hx'
      exact i.dist x x' b m1 args1 m2 args2 dx dx' hx hx'

theorem getAll_spec {defs : Nat → Option Def} {busy : List Nat} {g : St → Nat → Res (St × Nat)}
    (hg : ∀ s k s' a, Inv defs s → (∀ b ∈ busy, s.loc b = none) → g s k = .ok (s', a) → Step defs busy s s' ∧ s'.loc k = some a) :
    ∀ (args : List Nat) s s' as, Inv defs s → (∀ b ∈ busy, s.loc b = none) → getAll g s args = .ok (s', as) →
      Step defs busy s s' ∧ args.map s'.loc = as.map some
  | [], s, s', as, i, hb, h => by cases h; exact ⟨⟨i, Le.rfl' s, hb⟩, rfl⟩
  | k :: ks, s, s', as, i, hb, h => by
    obtain ⟨⟨s1, a⟩, h1, h⟩ := Res.bind_eq_ok.1 h
    obtain ⟨⟨s2, as'⟩, h2, h⟩ := Res.bind_eq_ok.1 h
    cases h
    have st1 := hg s k s1 a i hb h1
    have st2 := getAll_spec hg ks s1 s2 as' st1.1.inv st1.1.busy h2
    refine ⟨⟨st2.1.inv, st1.1.le.trans st2.1.le, st2.1.busy⟩, ?_⟩
    rw [List.map_cons, List.map_cons, st2.2, st2.1.le.loc k a st1.2]

theorem get_spec {defs : Nat → Option Def} : ∀ (fuel : Nat) (busy : List Nat) s k s' a, Inv defs s →
    (∀ b ∈ busy, s.loc b = none) → get defs fuel busy s k = .ok (s', a) → Step defs busy s s' ∧ s'.loc k = some a
  | 0, _, _, _, _, _, _, _, h => by cases h
  | fuel + 1, busy, s, k, s', a, i, hb, h => by
    rw [get] at h
    split at h
    · rename_i j d
      split at h
      · rename_i b hl
        cases h; exact ⟨⟨i, Le.rfl' s, hb⟩, hl⟩
      · rename_i hl
        split at h
        · cases h
        · rename_i hn
          obtain ⟨⟨s1, b⟩, h1, h⟩ := Res.bind_eq_ok.1 h
          cases h
          have st := get_spec fuel (k :: busy) s j s1 b i (fun x hx => by
            rcases List.mem_cons.1 hx with rfl | hx
            · exact hl
            · exact hb x hx) h1
          have hk := st.1.busy k (.head _)
          refine ⟨⟨inv_same st.1.inv d hk st.2, st.1.le.trans (le_setLoc hk), fun x hx => ?_⟩, by simp [setLoc]⟩
          have : x ≠ k := fun e => hn (e ▸ hx)
          simp only [setLoc, if_neg this]
          exact st.1.busy x (.tail _ hx)
    · rename_i m args d
      split at h
      · rename_i b hl
        cases h; exact ⟨⟨i, Le.rfl' s, hb⟩, hl⟩
      · rename_i hl
        split at h
        · cases h
        · rename_i hn
          obtain ⟨⟨s1, as⟩, h1, h⟩ := Res.bind_eq_ok.1 h
          cases h
          have st := getAll_spec (get_spec fuel (k :: busy)) args s s1 as i (fun x hx => by
            rcases List.mem_cons.1 hx with rfl | hx
            · exact hl
            · exact hb x hx) h1
          have hk := st.1.busy k (.head _)
          refine ⟨⟨inv_inst st.1.inv d hk st.2, st.1.le.trans ((le_alloc s1 _).trans (le_setLoc hk)), fun x hx => ?_⟩,
            by simp [setLoc]⟩
          have : x ≠ k := fun e => hn (e ▸ hx)
          simp only [setLoc, alloc, if_neg this]
          exact st.1.busy x (.tail _ hx)
    · cases h

/-- What holds after the declarations `done`. -/
structure GInv (defs : Nat → Option Def) (done : List Nat) (s : St) : Prop where
  inv : Inv defs s
  glob : ∀ k ∈ done, ∃ a, s.glob k = some a ∧ ((defs k ≠ some .noType ∧ s.loc k = some a) ∨
    (defs k = some .noType ∧ s.heap[a]? = some ⟨none, []⟩))
  dist : ∀ k k' a, k ∈ done → k' ∈ done → defs k = some .noType → defs k' = some .noType → s.glob k = some a →
    s.glob k' = some a → k = k'

theorem inv_alloc {defs : Nat → Option Def} {s : St} (o : Obj) (i : Inv defs s) : Inv defs (alloc s o).1 := by
  refine ⟨fun k a h => ?_, i.dist⟩
  rcases i.loc k a h with h | ⟨m, args, as, d, h, e⟩
  · exact .inl h
  · exact .inr ⟨m, args, as, d, heap_append h, e⟩

theorem initOne_spec {defs : Nat → Option Def} {fuel : Nat} {done : List Nat} {s s' : St} {k : Nat} (i : GInv defs done s)
    (hk : k ∉ done) (h : initOne defs fuel s k = .ok s') : GInv defs (k :: done) s' := by
  have old : ∀ x ∈ done, x ≠ k := fun x hx e => hk (e ▸ hx)
  rw [initOne] at h
  split at h
  · rename_i d
    cases h
    have j := inv_alloc ⟨none, []⟩ i.inv
    have fresh : ∀ x ∈ done, defs x = some .noType → s.glob x ≠ some s.heap.length := by
      intro x hx dx e
      obtain ⟨a, ha, h⟩ := i.glob x hx
      rw [ha] at e; cases e
      rcases h with ⟨n, _⟩ | ⟨_, h⟩
      · exact n dx
      · exact absurd (lt_of_heap h) (Nat.lt_irrefl _)
    refine ⟨⟨j.loc, j.dist⟩, fun x hx => ?_, fun x x' a hx hx' dx dx' gx gx' => ?_⟩
    · rcases List.mem_cons.1 hx with rfl | hx
      · exact ⟨s.heap.length, by simp [setGlob, alloc], .inr ⟨d, by simp [setGlob, alloc]⟩⟩
      · obtain ⟨a, ha, h⟩ := i.glob x hx
        refine ⟨a, by simp only [setGlob, alloc, if_neg (old x hx)]; exact ha, ?_⟩
        rcases h with h | ⟨dx, h⟩
        · exact .inl h
        · exact .inr ⟨dx, heap_append h⟩
    · rcases List.mem_cons.1 hx with e | ix <;> rcases List.mem_cons.1 hx' with e' | ix'
      · rw [e, e']
      · subst e
        simp only [setGlob, alloc, if_true] at gx; cases gx
        simp only [setGlob, alloc, if_neg (old x' ix')] at gx'
        exact absurd gx' (fresh x' ix' dx')
      · subst e'
        simp only [setGlob, alloc, if_true] at gx'; cases gx'
        simp only [setGlob, alloc, if_neg (old x ix)] at gx
        exact absurd gx (fresh x ix dx)
      · simp only [setGlob, alloc, if_neg (old x ix)] at gx
        simp only [setGlob, alloc, if_neg (old x' ix')] at gx'
        exact i.dist x x' a ix ix' dx dx' gx gx'
  · cases h
  · rename_i nt nr
    obtain ⟨⟨s1, a⟩, h1, h⟩ := Res.bind_eq_ok.1 h
    cases h
    have st := get_spec fuel [] s k s1 a i.inv (fun _ h => (by cases h)) h1
    have nt : defs k ≠ some .noType := nt
    refine ⟨⟨st.1.inv.loc, st.1.inv.dist⟩, fun x hx => ?_, fun x x' b hx hx' dx dx' gx gx' => ?_⟩
    · rcases List.mem_cons.1 hx with rfl | hx
      · exact ⟨a, by simp [setGlob], .inl ⟨nt, st.2⟩⟩
      · obtain ⟨b, hb, h⟩ := i.glob x hx
        refine ⟨b, by simp only [setGlob, if_neg (old x hx)]; rw [st.1.le.glob]; exact hb, ?_⟩
        rcases h with ⟨n, h⟩ | ⟨dx, h⟩
        · exact .inl ⟨n, st.1.le.loc x b h⟩
        · exact .inr ⟨dx, st.1.le.heap _ _ h⟩
    · have n : x ≠ k := fun e => nt (e ▸ dx)
      have n' : x' ≠ k := fun e => nt (e ▸ dx')
      simp only [setGlob, if_neg n] at gx
      simp only [setGlob, if_neg n'] at gx'
      rw [st.1.le.glob] at gx gx'
      exact i.dist x x' b ((List.mem_cons.1 hx).resolve_left n) ((List.mem_cons.1 hx').resolve_left n') dx dx' gx gx'

theorem initAll_spec {defs : Nat → Option Def} {fuel : Nat} : ∀ (ks done : List Nat) (s s' : St), GInv defs done s →
    ks.Nodup → (∀ k ∈ ks, k ∉ done) → initAll defs fuel s ks = .ok s' → ∃ done', (∀ k, k ∈ ks ∨ k ∈ done → k ∈ done') ∧
      GInv defs done' s'
  | [], done, s, s', i, _, _, h => by
    cases h; exact ⟨done, fun k h => h.elim (fun h => (by cases h)) id, i⟩
  | k :: ks, done, s, s', i, nd, hn, h => by
    obtain ⟨s1, h1, h⟩ := Res.bind_eq_ok.1 h
    obtain ⟨nk, nd⟩ := List.nodup_cons.1 nd
    obtain ⟨done', hd, i'⟩ := initAll_spec ks (k :: done) s1 s' (initOne_spec i (hn k (.head _)) h1) nd
      (fun x hx hx' => (List.mem_cons.1 hx').elim (fun e => nk (e ▸ hx)) (hn x (.tail _ hx))) h
    refine ⟨done', fun x hx => hd x ?_, i'⟩
    rcases hx with hx | hx
    · rcases List.mem_cons.1 hx with rfl | hx
      · exact .inr (.head _)
      · exact .inl hx
    · exact .inr (.tail _ hx)

theorem ginv_empty (defs : Nat → Option Def) : GInv defs [] empty :=
  ⟨⟨fun _ _ h => (by cases h), fun _ _ _ _ _ _ _ _ _ h => (by cases h)⟩, fun _ h => (by cases h), fun _ _ _ h => (by cases h)⟩

theorem good_of_ginv {defs : Nat → Option Def} {done : List Nat} {s : St} (i : GInv defs done s)
    (all : ∀ k d, defs k = some d → k ∈ done) (nr : ∀ k j, defs k ≠ some (.renames j)) : Good defs s.heap s.glob := by
  have gl : ∀ k a, s.loc k = some a → s.glob k = some a := by
    intro k a h
    have ⟨d, hd, hn⟩ : ∃ d, defs k = some d ∧ d ≠ .noType := by
      rcases i.inv.loc k a h with ⟨_, d, _⟩ | ⟨_, _, _, d, _⟩
      · exact ⟨_, d, fun e => (by cases e)⟩
      · exact ⟨_, d, fun e => (by cases e)⟩
    obtain ⟨b, hb, h'⟩ := i.glob k (all k d hd)
    rcases h' with ⟨_, h'⟩ | ⟨d', _⟩
    · rw [h] at h'; cases h'; exact hb
    · rw [hd] at d'; cases d'; exact absurd rfl hn
  have lg : ∀ k d a, defs k = some d → d ≠ .noType → s.glob k = some a → s.loc k = some a := by
    intro k d a hd hn h
    obtain ⟨b, hb, h'⟩ := i.glob k (all k d hd)
    rw [h] at hb; cases hb
    rcases h' with ⟨_, h'⟩ | ⟨d', _⟩
    · exact h'
    · rw [hd] at d'; cases d'; exact absurd rfl hn
  constructor
  · intro k d hd
    obtain ⟨a, ha, h⟩ := i.glob k (all k d hd)
    refine ⟨a, ha, ?_⟩
    rcases h with ⟨n, h⟩ | ⟨n, h⟩
    · rcases i.inv.loc k a h with ⟨j, d', hj⟩ | ⟨m, args, as, d', hh, e⟩
      · rw [hd] at d'; cases d'; exact gl j a hj
      · rw [hd] at d'; cases d'
        refine ⟨as, hh, ?_⟩
        rw [← e]
        refine List.map_congr_left fun j hj => ?_
        have : s.loc j ∈ as.map some := e ▸ List.mem_map_of_mem hj
        obtain ⟨b, _, hb⟩ := List.mem_map.1 this
        rw [← hb]; exact gl j b hb.symm
    · rw [hd] at n; cases n; exact h
  · intro k k' d d' a hd hd' md md' g g'
    have obj : ∀ k d, defs k = some d → Makes d → s.glob k = some a →
        (d = .noType ∧ s.heap[a]? = some ⟨none, []⟩) ∨ ∃ m args as, d = .inst m args ∧ s.heap[a]? = some ⟨some m, as⟩ := by
      intro k d hd md g
      cases d with
      | noType =>
        obtain ⟨b, hb, h⟩ := i.glob k (all k _ hd)
        rw [g] at hb; cases hb
        rcases h with ⟨n, _⟩ | ⟨_, h⟩
        · exact absurd hd n
        · exact .inl ⟨rfl, h⟩
      | same j => exact md.elim
      | renames j => exact md.elim
      | inst m args =>
        have hl := lg k _ a hd (fun e => (by cases e)) g
        rcases i.inv.loc k a hl with ⟨j, d', _⟩ | ⟨m', args', as, d', hh, _⟩
        · rw [hd] at d'; cases d'
        · rw [hd] at d'; cases d'; exact .inr ⟨m, args, as, rfl, hh⟩
    rcases obj k d hd md g with ⟨rfl, o⟩ | ⟨m, args, as, rfl, o⟩ <;>
      rcases obj k' d' hd' md' g' with ⟨rfl, o'⟩ | ⟨m', args', as', rfl, o'⟩
    · exact i.dist k k' a (all k _ hd) (all k' _ hd') hd hd' g g'
    · rw [o] at o'; cases o'
    · rw [o] at o'; cases o'
    · exact i.inv.dist k k' a m args m' args' hd hd' (lg k _ a hd (fun e => (by cases e)) g)
        (lg k' _ a hd' (fun e => (by cases e)) g')

/-! ### Definedness -/

theorem getAll_ok {g : St → Nat → Res (St × Nat)} : ∀ (args : List Nat) (s : St),
    (∀ j ∈ args, ∀ s, ∃ r, g s j = .ok r) → ∃ r, getAll g s args = .ok r
  | [], s, _ => ⟨_, rfl⟩
  | k :: ks, s, h => by
    obtain ⟨r, hr⟩ := h k (.head _) s
    obtain ⟨q, hq⟩ := getAll_ok ks r.1 fun j hj => h j (.tail _ hj)
    exact ⟨(q.1, r.2 :: q.2), by rw [getAll, hr, Res.bind, hq, Res.bind]⟩

theorem get_ok {defs : Nat → Option Def} {rank : Nat → Nat} (hr : Ranked defs rank) : ∀ (fuel : Nat) (busy : List Nat) (s : St) (k : Nat)
    (d : Def), defs k = some d → d ≠ .noType → rank k < fuel → (∀ b ∈ busy, rank k < rank b) → ∃ r, get defs fuel busy s k = .ok r
  | 0, _, _, _, _, _, _, h, _ => absurd h (Nat.not_lt_zero _)
  | fuel + 1, busy, s, k, d, hd, hn, hf, hb => by
    have nk : k ∉ busy := fun h => Nat.lt_irrefl _ (hb k h)
    obtain ⟨nr, hs⟩ := hr k d hd
    have step : ∀ j ∈ refs d, ∀ s, ∃ r, get defs fuel (k :: busy) s j = .ok r := by
      intro j hj s
      obtain ⟨lt, d', hd', hn'⟩ := hs j hj
      refine get_ok hr fuel (k :: busy) s j d' hd' hn' (by omega) fun b h => ?_
      rcases List.mem_cons.1 h with rfl | h
      · exact lt
      · have := hb b h; omega
    rw [get, hd]
    cases d with
    | noType => exact absurd rfl hn
    | renames j => exact absurd rfl (nr j)
    | same j =>
      dsimp only
      split
      · exact ⟨_, rfl⟩
      · rw [if_neg nk]
        obtain ⟨r, e⟩ := step j (List.mem_singleton.2 rfl) s
        rw [e]; exact ⟨_, rfl⟩
    | inst m args =>
      dsimp only
      split
      · exact ⟨_, rfl⟩
      · rw [if_neg nk]
        obtain ⟨r, e⟩ := getAll_ok args s step
        rw [e]; exact ⟨_, rfl⟩

theorem initAll_ok {defs : Nat → Option Def} {rank : Nat → Nat} (hr : Ranked defs rank) (fuel : Nat) : ∀ (ks : List Nat) (s : St),
    (∀ k ∈ ks, rank k < fuel ∧ ∃ d, defs k = some d) → ∃ s', initAll defs fuel s ks = .ok s'
  | [], s, _ => ⟨s, rfl⟩
  | k :: ks, s, h => by
    obtain ⟨hf, d, hd⟩ := h k (.head _)
    have : ∃ s1, initOne defs fuel s k = .ok s1 := by
      rw [initOne, hd]
      cases d with
      | noType => exact ⟨_, rfl⟩
      | renames j => exact absurd rfl ((hr k _ hd).1 j)
      | same j =>
        obtain ⟨r, e⟩ := get_ok hr fuel [] s k _ hd (fun e => (by cases e)) hf (fun _ h => (by cases h))
        dsimp only; rw [e]; exact ⟨_, rfl⟩
      | inst m args =>
        obtain ⟨r, e⟩ := get_ok hr fuel [] s k _ hd (fun e => (by cases e)) hf (fun _ h => (by cases h))
        dsimp only; rw [e]; exact ⟨_, rfl⟩
    obtain ⟨s1, e⟩ := this
    obtain ⟨s', e'⟩ := initAll_ok hr fuel ks s1 fun x hx => h x (.tail _ hx)
    exact ⟨s', by rw [initAll, e, Res.bind, e']⟩

end Aps.TopTypes

namespace Aps.TopTypes

theorem initAll_norenames {defs : Nat → Option Def} {fuel : Nat} : ∀ (ks : List Nat) (s s' : St), initAll defs fuel s ks = .ok s' →
    ∀ k ∈ ks, ∀ j, defs k ≠ some (.renames j)
  | [], _, _, _ => fun _ h => (by cases h)
  | k :: ks, s, s', h => by
    obtain ⟨s1, h1, h⟩ := Res.bind_eq_ok.1 h
    intro x hx j e
    rcases List.mem_cons.1 hx with rfl | hx
    · rw [initOne, e] at h1; cases h1
    · exact initAll_norenames ks s1 s' h x hx j e

theorem get_done {defs : Nat → Option Def} {done : List Nat} {s : St} (i : GInv defs done s) (fuel : Nat) (busy : List Nat)
    {k : Nat} {d : Def} {s' : St} {a : Nat} (hk : k ∈ done) (hd : defs k = some d)
    (h : get defs fuel busy s k = .ok (s', a)) : s' = s ∧ s.glob k = some a := by
  cases fuel with
  | zero => cases h
  | succ fuel =>
    obtain ⟨b, hb, h'⟩ := i.glob k hk
    rcases h' with ⟨_, h'⟩ | ⟨n, _⟩
    · cases d with
      | noType => rw [get, hd] at h; cases h
      | renames j => rw [get, hd] at h; cases h
      | same j => rw [get, hd] at h; simp only [h'] at h; cases h; exact ⟨rfl, hb⟩
      | inst m args => rw [get, hd] at h; simp only [h'] at h; cases h; exact ⟨rfl, hb⟩
    · rw [get, n] at h; cases h

end Aps.TopTypes

namespace Aps.TopTypes

/-- The declaration that makes the object of a type. -/
inductive Root (defs : Nat → Option Def) : Nat → Nat → Prop where
  | here {k d} : defs k = some d → Makes d → Root defs k k
  | same {k j r} : defs k = some (.same j) → Root defs j r → Root defs k r

theorem root_exists {defs : Nat → Option Def} {rank : Nat → Nat} (hr : Ranked defs rank) : ∀ (n k : Nat) (d : Def), rank k < n →
    defs k = some d → ∃ r, Root defs k r
  | 0, _, _, h, _ => absurd h (Nat.not_lt_zero _)
  | n + 1, k, d, h, hd => by
    cases d with
    | noType => exact ⟨k, .here hd trivial⟩
    | inst m args => exact ⟨k, .here hd trivial⟩
    | renames j => exact absurd rfl ((hr k _ hd).1 j)
    | same j =>
      obtain ⟨lt, d', hd', _⟩ := (hr k _ hd).2 j (List.mem_singleton.2 rfl)
      obtain ⟨r, h'⟩ := root_exists hr n j d' (by omega) hd'
      exact ⟨r, .same hd h'⟩

theorem root_addr {defs : Nat → Option Def} {heap : List Obj} {t : Nat → Option Nat} (g : Good defs heap t) {k r : Nat}
    (h : Root defs k r) : t k = t r ∧ ∃ d, defs r = some d ∧ Makes d := by
  induction h with
  | here hd m => exact ⟨rfl, _, hd, m⟩
  | same hd _ ih =>
    obtain ⟨a, ha, hj⟩ := g.1 _ _ hd
    refine ⟨?_, ih.2⟩
    rw [ha, ← ih.1]; exact hj.symm

theorem same_iff {defs : Nat → Option Def} {heap : List Obj} {t : Nat → Option Nat} (g : Good defs heap t) {k k' r r' : Nat}
    (h : Root defs k r) (h' : Root defs k' r') : t k = t k' ↔ r = r' := by
  obtain ⟨e, d, hd, m⟩ := root_addr g h
  obtain ⟨e', d', hd', m'⟩ := root_addr g h'
  obtain ⟨a, ha, _⟩ := g.1 r d hd
  constructor
  · intro x
    exact g.2 r r' d d' a hd hd' m m' ha (by rw [← e', ← x, e, ha])
  · rintro rfl
    rw [e, e']

end Aps.TopTypes
