import Verif.Spec.Layout
import Mathlib.Data.List.Basic
import Mathlib.Tactic.Common
/-! # Proofs about the layout of generated files -/
namespace Aps.Layout
open Classical

variable {progs : Str → Option Prog} {files : Str → Option (List Line)} {R : Str → Prop}

/-- The guard of `n` is defined. -/
def Begun (progs : Str → Option Prog) (st : St) (n : Str) : Prop :=
  ∃ p m, progs n = some p ∧ macroOf (guardText p.name) = some m ∧ m ∈ st.defs

/-- `S`: the headers that are being read. -/
structure Inv (progs : Str → Option Prog) (R S : Str → Prop) (st : St) : Prop where
  succ : ∀ k, R k → Begun progs st k → ¬ S k → ∀ m, Withs progs k m → Begun progs st m
  done : ∀ k, R k → Begun progs st k → ¬ S k → ∀ p, progs k = some p → own k st.out = declsOf k p.units
  fresh : ∀ k, R k → ¬ Begun progs st k → own k st.out = []
  only : ∀ x ∈ st.out, R x.1
  order : ∀ k, R k → Begun progs st k → ¬ S k → ∀ p pre m post, progs k = some p →
    p.units = pre ++ .with (quoted m) :: post → ¬ Uses progs m k →
    ∃ o1 o2, st.out = o1 ++ o2 ∧ own k o1 = declsOf k pre ∧ ∀ j q, Uses progs m j → progs j = some q → own j o1 = declsOf j q.units

/-- One state comes after another. -/
structure After (progs : Str → Option Prog) (R : Str → Prop) (not : Str → Prop) (st st' : St) : Prop where
  defs : ∀ m ∈ st.defs, m ∈ st'.defs
  out : ∃ w, st'.out = st.out ++ w ∧ ∀ k, R k → Begun progs st k → ¬ not k → own k w = []

theorem own_append (n : Str) (a b : List (Str × Nat)) : own n (a ++ b) = own n a ++ own n b := List.filter_append ..

theorem After.refl (not : Str → Prop) (st : St) : After progs R not st st := ⟨fun _ h => h, [], by simp, fun _ _ _ _ => rfl⟩

theorem Begun.mono {st st' : St} (h : ∀ m ∈ st.defs, m ∈ st'.defs) {n : Str} : Begun progs st n → Begun progs st' n :=
  fun ⟨p, m, h1, h2, h3⟩ => ⟨p, m, h1, h2, h _ h3⟩

theorem After.trans {not : Str → Prop} {a b c : St} (h : After progs R not a b) (h' : After progs R not b c) :
    After progs R not a c := by
  obtain ⟨w, e, hw⟩ := h.out
  obtain ⟨w', e', hw'⟩ := h'.out
  refine ⟨fun m hm => h'.defs m (h.defs m hm), w ++ w', by rw [e', e, List.append_assoc], ?_⟩
  intro k hk hb hn
  rw [own_append, hw k hk hb hn, hw' k hk (hb.mono h.defs) hn]
  rfl

theorem After.weaken {not not' : Str → Prop} {a b : St} (h : After progs R not a b) (hi : ∀ k, not k → not' k) :
    After progs R not' a b := by
  obtain ⟨w, e, hw⟩ := h.out
  exact ⟨h.defs, w, e, fun k hk hb hn => hw k hk hb fun h => hn (hi k h)⟩

/-- The programs whose headers have not been begun. -/
noncomputable def left (progs : Str → Option Prog) (l : List Str) (st : St) : Nat :=
  (l.filter fun n => ¬ Begun progs st n).length

theorem left_mono {l : List Str} {st st' : St} (h : ∀ m ∈ st.defs, m ∈ st'.defs) : left progs l st' ≤ left progs l st := by
  unfold left
  rw [← List.countP_eq_length_filter, ← List.countP_eq_length_filter]
  refine List.countP_mono_left fun x _ hx => ?_
  simp only [decide_eq_true_eq] at hx ⊢
  exact fun hb => hx (hb.mono h)

theorem left_lt {l : List Str} {st st' : St} (h : ∀ m ∈ st.defs, m ∈ st'.defs) {n : Str} (hn : n ∈ l)
    (h1 : ¬ Begun progs st n) (h2 : Begun progs st' n) : left progs l st' < left progs l st := by
  induction l with
  | nil => cases hn
  | cons x l ih =>
    have hm := left_mono (progs := progs) (l := l) h
    simp only [left, List.filter_cons] at ih hm ⊢
    by_cases hx : x = n
    · subst hx
      simp only [h1, h2, not_true_eq_false, not_false_eq_true, decide_true, decide_false, if_true, Bool.false_eq_true, if_false,
        List.length_cons]
      omega
    · have hn' : n ∈ l := by
        rcases List.mem_cons.1 hn with e | e
        · exact absurd e.symm hx
        · exact e
      have := ih hn'
      by_cases hb' : Begun progs st' x
      · by_cases hb : Begun progs st x
        · simpa only [hb, hb', not_true_eq_false, decide_false, Bool.false_eq_true, if_false] using this
        · simp only [hb, hb', not_true_eq_false, not_false_eq_true, decide_true, decide_false, if_true, Bool.false_eq_true, if_false,
            List.length_cons]
          omega
      · have hb : ¬ Begun progs st x := fun h' => hb' (h'.mono h)
        simp only [hb, hb', not_false_eq_true, decide_true, if_true, List.length_cons]
        omega

theorem skip_lines (n : Str) : ∀ us : List Item, skip (us.flatMap (itemLines n) ++ [.endif]) = []
  | [] => rfl
  | .none :: us => skip_lines n us
  | .with t :: us => skip_lines n us
  | .decl d :: us => skip_lines n us

theorem unquote_quoted (n : Str) : unquote (quoted n) = n := by
  simp only [unquote, quoted]
  rw [show '"' :: (n ++ ['"']) = ('"' :: n) ++ ['"'] from rfl, List.dropLast_concat]
  rfl

/-- What reading the header of `n` does in a state. -/
def Reads (progs : Str → Option Prog) (files : Str → Option (List Line)) (R S : Str → Prop) (n : Str) (st : St) : Prop :=
  ∀ p, progs n = some p → ∃ N st', (∀ fuel, N ≤ fuel → pp files fuel (header n p) st = .ok st') ∧ Inv progs R S st' ∧
    Begun progs st' n ∧ After progs R (fun _ => False) st st'

/-- The rest `us` of the units of a program that is being read. -/
theorem read_units (I : Installed progs files R) {l : List Str} {K : Nat}
    (ih : ∀ (S : Str → Prop) (n : Str) (st : St), left progs l st < K → R n → Inv progs R S st → (∀ s, S s → Uses progs s n) →
      (∀ s, S s → Begun progs st s) → Reads progs files R S n st)
    {S : Str → Prop} {n : Str} (hn : R n) {p : Prog} (hp : progs n = some p) (hS : ∀ s, S s → Uses progs s n) (hSn : S n) :
    ∀ (us dn : List Item) (st : St), p.units = dn ++ us → left progs l st < K → Inv progs R S st → Begun progs st n →
      (∀ s, S s → Begun progs st s) → own n st.out = declsOf n dn →
      ∃ N st', (∀ fuel, N ≤ fuel → pp files fuel (us.flatMap (itemLines n) ++ [.endif]) st = .ok st') ∧ Inv progs R S st' ∧
        After progs R (fun k => k = n) st st' ∧ own n st'.out = declsOf n (dn ++ us) ∧
        (∀ m, .with (quoted m) ∈ us → Begun progs st' m) ∧
        (∀ pre m post, us = pre ++ .with (quoted m) :: post → ¬ Uses progs m n →
          ∃ o1 o2, st'.out = o1 ++ o2 ∧ own n o1 = declsOf n (dn ++ pre) ∧
            ∀ j q, Uses progs m j → progs j = some q → own j o1 = declsOf j q.units)
  | [], dn, st, _, _, hI, _, _, ho =>
    ⟨2, st, fun fuel hf => by
      obtain ⟨f, rfl⟩ : ∃ f, fuel = f + 2 := ⟨fuel - 2, by omega⟩
      rfl, hI, After.refl _ _, by rw [ho, List.append_nil], (fun m h => by cases h), (by intro pre m post h; cases pre <;> cases h)⟩
  | .none :: us, dn, st, hu, hk, hI, hb, hSb, ho => by
    obtain ⟨N, st', h1, h2, h3, h4, h5, h6⟩ := read_units I ih hn hp hS hSn us (dn ++ [.none]) st (by rw [hu]; simp) hk hI hb hSb
      (by rw [ho]; simp [declsOf])
    refine ⟨N, st', h1, h2, h3, by rw [h4]; simp, ?_, ?_⟩
    · intro m hm
      rcases List.mem_cons.1 hm with e | e
      · cases e
      · exact h5 m e
    · intro pre m post e hnu
      cases pre with
      | nil => cases e
      | cons x pre =>
        simp only [List.cons_append, List.cons.injEq] at e
        obtain ⟨rfl, e⟩ := e
        obtain ⟨o1, o2, e1, e2, e3⟩ := h6 pre m post e hnu
        exact ⟨o1, o2, e1, by rw [e2]; simp, e3⟩
  | .decl d :: us, dn, st, hu, hk, hI, hb, hSb, ho => by
    have hI' : Inv progs R S ⟨st.defs, st.out ++ [(n, d)]⟩ := by
      have ne : ∀ k, k ≠ n → own k (st.out ++ [(n, d)]) = own k st.out := by
        intro k hkn
        rw [own_append]
        have : ¬ n = k := fun e => hkn e.symm
        simp [own, this]
      refine ⟨hI.succ, ?_, ?_, ?_, ?_⟩
      · intro k hk hbk hs q hq
        have hkn : k ≠ n := fun e => hs (e ▸ hSn)
        rw [ne k hkn]
        exact hI.done k hk hbk hs q hq
      · intro k hk hbk
        have hkn : k ≠ n := fun e => hbk (e ▸ hb)
        rw [ne k hkn]
        exact hI.fresh k hk hbk
      · intro x hx
        rcases List.mem_append.1 hx with h | h
        · exact hI.only x h
        · rw [List.mem_singleton.1 h]; exact hn
      · intro k hk hbk hs q pre m post hq hqu hnu
        obtain ⟨o1, o2, e1, e2, e3⟩ := hI.order k hk hbk hs q pre m post hq hqu hnu
        exact ⟨o1, o2 ++ [(n, d)], by rw [e1, List.append_assoc], e2, e3⟩
    obtain ⟨N, st', h1, h2, h3, h4, h5, h6⟩ := read_units I ih hn hp hS hSn us (dn ++ [.decl d]) ⟨st.defs, st.out ++ [(n, d)]⟩
      (by rw [hu]; simp) hk hI' hb hSb (by rw [own_append, ho]; simp [declsOf, own])
    refine ⟨N + 1, st', ?_, h2, ?_, by rw [h4]; simp, ?_, ?_⟩
    · intro fuel hf
      obtain ⟨f, rfl⟩ : ∃ f, fuel = f + 1 := ⟨fuel - 1, by omega⟩
      exact h1 f (by omega)
    · obtain ⟨w, e, hw⟩ := h3.out
      refine ⟨h3.defs, (n, d) :: w, by rw [e]; simp, ?_⟩
      intro k hk hbk hkn
      have : ¬ n = k := fun e => hkn e.symm
      show List.filter (fun x => decide (x.1 = k)) ((n, d) :: w) = []
      rw [List.filter_cons, if_neg (by simpa using this)]
      exact hw k hk hbk hkn
    · intro m hm
      rcases List.mem_cons.1 hm with e | e
      · cases e
      · exact h5 m e
    · intro pre m post e hnu
      cases pre with
      | nil => cases e
      | cons x pre =>
        simp only [List.cons_append, List.cons.injEq] at e
        obtain ⟨rfl, e⟩ := e
        obtain ⟨o1, o2, e1, e2, e3⟩ := h6 pre m post e hnu
        exact ⟨o1, o2, e1, by rw [e2]; simp, e3⟩
  | .with t :: us, dn, st, hu, hk, hI, hb, hSb, ho => by
    have hmem : Item.with t ∈ p.units := by rw [hu]; simp
    obtain ⟨m, rfl⟩ := I.quotes n p t hn hp hmem
    have hw : Withs progs n m := ⟨p, hp, hmem⟩
    have hm : R m := I.closed n m hn hw
    obtain ⟨q, hq, hf⟩ := I.found m hm
    obtain ⟨N0, st1, r1, i1, b1, a1⟩ := ih S m st hk hm hI (fun s hs => (hS s hs).tail hw) hSb q hq
    obtain ⟨w1, e1, hw1⟩ := a1.out
    have ho1 : own n st1.out = declsOf n dn := by
      rw [e1, own_append, ho, hw1 n hn hb (fun h => h), List.append_nil]
    obtain ⟨N, st', h1, h2, h3, h4, h5, h6⟩ := read_units I ih hn hp hS hSn us (dn ++ [.with (quoted m)]) st1
      (by rw [hu]; simp) (Nat.lt_of_le_of_lt (left_mono a1.defs) hk) i1 (hb.mono a1.defs) (fun s hs => (hSb s hs).mono a1.defs)
      (by rw [ho1]; simp [declsOf])
    refine ⟨max N0 N + 1, st', ?_, h2, (a1.weaken (fun k h => h.elim)).trans h3, by rw [h4]; simp, ?_, ?_⟩
    · intro fuel hfu
      obtain ⟨f, rfl⟩ : ∃ f, fuel = f + 1 := ⟨fuel - 1, by omega⟩
      show pp files (f + 1) (.incl (dotH (unquote (quoted m))) :: (us.flatMap (itemLines n) ++ [.endif])) st = _
      rw [unquote_quoted]
      simp only [pp, hf]
      rw [r1 f (by omega)]
      exact h1 f (by omega)
    · intro m' hm'
      rcases List.mem_cons.1 hm' with e | e
      · simp only [Item.with.injEq, quoted, List.cons.injEq, true_and] at e
        have e := List.append_cancel_right e
        subst e
        exact b1.mono h3.defs
      · exact h5 m' e
    · intro pre m' post e hnu
      cases pre with
      | nil =>
        simp only [List.nil_append, List.cons.injEq, Item.with.injEq, quoted, true_and] at e
        have e' := List.append_cancel_right e.1
        subst e'
        obtain ⟨w, ew, -⟩ := h3.out
        refine ⟨st1.out, w, ew, by rw [ho1, List.append_nil], ?_⟩
        have key : ∀ j, Uses progs m j → R j ∧ Begun progs st1 j ∧ ¬ S j := by
          intro j hj
          have nS : ∀ j, Uses progs m j → ¬ S j := fun j hj hs => hnu (hj.trans (hS j hs))
          induction hj with
          | refl => exact ⟨hm, b1, nS m .refl⟩
          | tail hj hw ihj => exact ⟨I.closed _ _ ihj.1 hw, i1.succ _ ihj.1 ihj.2.1 ihj.2.2 _ hw, nS _ (hj.tail hw)⟩
        intro j q' hj hq'
        obtain ⟨k1, k2, k3⟩ := key j hj
        exact i1.done j k1 k2 k3 q' hq'
      | cons x pre =>
        simp only [List.cons_append, List.cons.injEq] at e
        obtain ⟨rfl, e⟩ := e
        obtain ⟨o1, o2, e1, e2, e3⟩ := h6 pre m' post e hnu
        exact ⟨o1, o2, e1, by rw [e2]; simp, e3⟩

theorem read_header (I : Installed progs files R) {l : List Str} (hl : ∀ n, R n → n ∈ l) : ∀ (K : Nat) (S : Str → Prop) (n : Str)
    (st : St), left progs l st < K → R n → Inv progs R S st → (∀ s, S s → Uses progs s n) → (∀ s, S s → Begun progs st s) →
    Reads progs files R S n st
  | 0, S, n, st, hk, _, _, _, _ => absurd hk (by omega)
  | K + 1, S, n, st, hk, hn, hI, hS, hSb => by
    intro p hp
    obtain ⟨mc, hmc⟩ := Option.isSome_iff_exists.1 (I.valid n p hn hp)
    by_cases hb : Begun progs st n
    · refine ⟨3, st, ?_, hI, hb, After.refl _ _⟩
      intro fuel hf
      obtain ⟨f, rfl⟩ : ∃ f, fuel = f + 3 := ⟨fuel - 3, by omega⟩
      obtain ⟨p', m', h1, h2, h3⟩ := hb
      rw [hp] at h1; cases h1
      simp only [header, pp, h2, if_pos h3]
      have : skip (Line.define (guardText p.name) :: (p.units.flatMap (itemLines n) ++ [.endif])) = [] := skip_lines n _
      rw [this]
      rfl
    · have hmd : mc ∉ st.defs := fun h => hb ⟨p, mc, hp, hmc, h⟩
      have hsub : ∀ m ∈ st.defs, m ∈ mc :: st.defs := fun m h => List.mem_cons_of_mem _ h
      have hbn : Begun progs ⟨mc :: st.defs, st.out⟩ n := ⟨p, mc, hp, hmc, List.mem_cons_self⟩
      have begun : ∀ k, R k → Begun progs ⟨mc :: st.defs, st.out⟩ k → k ≠ n → Begun progs st k := by
        rintro k hk ⟨q, m, h1, h2, h3⟩ hkn
        rcases List.mem_cons.1 h3 with e | e
        · subst e
          exact absurd (I.apart k n q p hk hn h1 hp (by rw [h2, hmc])) hkn
        · exact ⟨q, m, h1, h2, e⟩
      have hI1 : Inv progs R (fun s => S s ∨ s = n) ⟨mc :: st.defs, st.out⟩ := by
        refine ⟨?_, ?_, ?_, hI.only, ?_⟩
        · intro k hk hbk hs m hw
          exact (hI.succ k hk (begun k hk hbk fun e => hs (.inr e)) (fun h => hs (.inl h)) m hw).mono hsub
        · intro k hk hbk hs
          exact hI.done k hk (begun k hk hbk fun e => hs (.inr e)) fun h => hs (.inl h)
        · intro k hk hbk
          exact hI.fresh k hk fun h => hbk (h.mono hsub)
        · intro k hk hbk hs
          exact hI.order k hk (begun k hk hbk fun e => hs (.inr e)) fun h => hs (.inl h)
      have hlt : left progs l ⟨mc :: st.defs, st.out⟩ < left progs l st := left_lt hsub (hl n hn) hb hbn
      obtain ⟨N, st', h1, h2, h3, h4, h5, h6⟩ := read_units (K := K) I (read_header I hl K) (S := fun s => S s ∨ s = n) hn hp
        (fun s hs => hs.elim (hS s) fun e => e ▸ .refl) (.inr rfl) p.units [] ⟨mc :: st.defs, st.out⟩ rfl (by omega) hI1 hbn
        (fun s hs => hs.elim (fun h => (hSb s h).mono hsub) fun e => e ▸ hbn) (hI.fresh n hn hb)
      have hbn' : Begun progs st' n := hbn.mono h3.defs
      refine ⟨N + 2, st', ?_, ?_, hbn', ?_⟩
      · intro fuel hf
        obtain ⟨f, rfl⟩ : ∃ f, fuel = f + 2 := ⟨fuel - 2, by omega⟩
        simp only [header, pp, hmc, if_neg hmd]
        exact h1 f (by omega)
      · refine ⟨?_, ?_, h2.fresh, h2.only, ?_⟩
        · intro k hk hbk hs m hw
          by_cases e : k = n
          · subst e
            obtain ⟨q, hq, hmem⟩ := hw
            rw [hp] at hq; cases hq
            exact h5 m hmem
          · exact h2.succ k hk hbk (fun h => h.elim hs e) m hw
        · intro k hk hbk hs q hq
          by_cases e : k = n
          · subst e
            rw [hp] at hq; cases hq
            rw [h4]; rfl
          · exact h2.done k hk hbk (fun h => h.elim hs e) q hq
        · intro k hk hbk hs q pre m post hq hqu hnu
          by_cases e : k = n
          · subst e
            rw [hp] at hq; cases hq
            exact h6 pre m post hqu hnu
          · exact h2.order k hk hbk (fun h => h.elim hs e) q pre m post hq hqu hnu
      · obtain ⟨w, e, hw⟩ := h3.out
        refine ⟨fun m hm => h3.defs m (hsub m hm), w, e, ?_⟩
        intro k hk hbk _
        exact hw k hk (hbk.mono hsub) fun e => hb (e ▸ hbk)

end Aps.Layout
