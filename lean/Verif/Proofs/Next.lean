import Verif.Spec.Next
import Mathlib.Tactic.Common
set_option linter.unusedVariables false
/-!
# The `next` fields
-/
namespace Aps.Next

/-- the field of the node with this number -/
def look (h : Links) (i : Nat) : Option Node := ((h.find? fun w => w.1 = i).map (·.2)).getD none

theorem next_eq (h : Links) (n : Node) : next h n = look h n.id := rfl

theorem look_cons (w : Nat × Option Node) (h : Links) (i : Nat) : look (w :: h) i = if w.1 = i then w.2 else look h i := by
  unfold look
  by_cases hw : w.1 = i
  · simp [hw]
  · simp [hw]

theorem look_append {new h : Links} {i : Nat} (hi : i ∉ new.map (·.1)) : look (new ++ h) i = look h i := by
  induction new with
  | nil => rfl
  | cons w new ih =>
    simp only [List.map_cons, List.mem_cons, not_or] at hi
    rw [List.cons_append, look_cons, if_neg (fun e => hi.1 e.symm)]
    exact ih hi.2

theorem iterates_congr {h h' : Links} {o : Option Node} {l : List Node} (hit : Iterates h o l)
    (he : ∀ x ∈ l, look h' x.id = look h x.id) : Iterates h' o l := by
  induction hit with
  | done => exact .done
  | step hit ih =>
    refine .step ?_
    rw [next_eq, he _ (by simp), ← next_eq]
    exact ih fun x hx => he x (by simp [hx])

theorem elem_ids : ∀ (s : Seq), ∀ x ∈ s.elems, x.id ∈ s.ids
  | .nil, x, hx => by simp [Seq.elems] at hx
  | .list y, x, hx => by
    simp [Seq.elems] at hx
    subst hx
    cases x with | mk i ks => simp [Seq.ids, Node.ids, Node.id]
  | .append l1 l2, x, hx => by
    simp only [Seq.elems, List.mem_append] at hx
    simp only [Seq.ids, List.mem_append]
    exact hx.imp (elem_ids l1 x) (elem_ids l2 x)

theorem ids_elems : ∀ s : Seq, s.ids = s.elems.flatMap Node.ids
  | .nil => rfl
  | .list x => by simp [Seq.ids, Seq.elems]
  | .append l1 l2 => by simp [Seq.ids, Seq.elems, ids_elems l1, ids_elems l2]

theorem inner_elems : ∀ s : Seq, s.inner = s.elems.flatMap Node.seqs
  | .nil => rfl
  | .list x => by simp [Seq.inner, Seq.elems]
  | .append l1 l2 => by simp [Seq.inner, Seq.elems, inner_elems l1, inner_elems l2]

theorem first_eq : ∀ s : Seq, first s = s.elems.head?
  | .nil => rfl
  | .list x => rfl
  | .append l1 l2 => by
    rw [first, Seq.elems, List.head?_append, first_eq l1, first_eq l2]
    cases l1.elems.head? <;> rfl

theorem id_mem_ids (x : Node) : x.id ∈ x.ids := by
  cases x with | mk i ks => simp [Node.ids, Node.id]

/-- `setNext` links the elements to each other and the last one to `nxt` -/
theorem setNext_ok : ∀ (s : Seq) (nxt : Option Node) (h : Links) (l : List Node), s.ids.Nodup → Iterates h nxt l →
    (∀ x ∈ l, x.id ∉ s.ids) →
    ∃ new, setNext s nxt h = (first (Seq.append s .nil) <|> nxt, new ++ h) ∧ (∀ i ∈ new.map (·.1), ∃ x ∈ s.elems, i = x.id) ∧
      Iterates (new ++ h) (first s <|> nxt) (s.elems ++ l)
  | .nil, nxt, h, l, _, hit, _ => by
    refine ⟨[], ?_, by simp, by simpa [Seq.elems, first] using hit⟩
    simp [setNext, first]
  | .list x, nxt, h, l, hnd, hit, hl => by
    refine ⟨[(x.id, nxt)], by simp [setNext, first], by simp [Seq.elems], ?_⟩
    simp only [first, Seq.elems, List.singleton_append]
    refine .step ?_
    rw [next_eq, look_cons, if_pos rfl]
    refine iterates_congr hit fun y hy => ?_
    rw [look_cons, if_neg]
    intro e
    apply hl y hy
    simp only at e
    rw [← e]
    exact id_mem_ids x
  | .append l1 l2, nxt, h, l, hnd, hit, hl => by
    simp only [Seq.ids] at hnd hl
    obtain ⟨hn1, hn2, hdis⟩ := List.nodup_append.1 hnd
    obtain ⟨new2, he2, hk2, hi2⟩ := setNext_ok l2 nxt h l hn2 hit fun x hx hm => hl x hx (by simp [hm])
    have hfirst : ∀ s : Seq, first (Seq.append s .nil) = first s := by
      intro s; simp only [first]; cases first s <;> rfl
    rw [hfirst] at he2
    obtain ⟨new1, he1, hk1, hi1⟩ := setNext_ok l1 (first l2 <|> nxt) (new2 ++ h) (l2.elems ++ l) hn1 hi2 (by
      intro x hx hm
      rcases List.mem_append.1 hx with hx | hx
      · exact hdis _ hm _ (elem_ids l2 x hx) rfl
      · exact hl x hx (by simp [hm]))
    rw [hfirst] at he1
    have ho : (first (Seq.append l1 l2) <|> nxt) = (first l1 <|> (first l2 <|> nxt)) := by
      simp only [first]; cases first l1 <;> rfl
    refine ⟨new1 ++ new2, ?_, ?_, ?_⟩
    · rw [hfirst, ho]
      simp only [setNext, he2, he1, List.append_assoc]
    · intro i hi
      simp only [List.map_append, List.mem_append] at hi
      simp only [Seq.elems, List.mem_append]
      rcases hi with hi | hi
      · obtain ⟨x, hx, e⟩ := hk1 i hi; exact ⟨x, .inl hx, e⟩
      · obtain ⟨x, hx, e⟩ := hk2 i hi; exact ⟨x, .inr hx, e⟩
    · rw [ho, List.append_assoc, Seq.elems, List.append_assoc]; exact hi1

/-- what a traversal does: fields below `ids` are set, and every sequence can be iterated, whatever is done to
other fields afterwards -/
def Does (f : Nat → Links → Res Links) (ids : List Nat) (seqs : List Seq) : Prop :=
  ∀ h, ∃ F new, (∀ fuel ≥ F, f fuel h = .ok (new ++ h)) ∧ (∀ i ∈ new.map (·.1), i ∈ ids) ∧
    ∀ h', (∀ i ∈ ids, look h' i = look (new ++ h) i) → ∀ s ∈ seqs, Iterates h' (first s) s.elems

theorem loop_ok : ∀ (l : List Node), (∀ x ∈ l, Does (fun fuel => traverse fuel x) x.kids.ids x.seqs) →
    (l.flatMap Node.ids).Nodup → ∀ (h : Links) (o : Option Node), Iterates h o l →
    ∃ F new, (∀ fuel ≥ F, loop fuel o h = .ok (new ++ h)) ∧ (∀ i ∈ new.map (·.1), ∃ x ∈ l, i ∈ x.kids.ids) ∧
      ∀ h', (∀ i ∈ l.flatMap Node.ids, look h' i = look (new ++ h) i) → ∀ s ∈ l.flatMap Node.seqs, Iterates h' (first s) s.elems
  | [], _, _, h, o, hit => by
    cases hit
    refine ⟨1, [], ?_, by simp, by simp⟩
    intro fuel hf
    obtain ⟨fuel, rfl⟩ : ∃ k, fuel = k + 1 := ⟨fuel - 1, by omega⟩
    simp [loop]
  | x :: l, hx, hnd, h, o, hit => by
    cases hit with
    | step hit =>
      simp only [List.flatMap_cons] at hnd
      obtain ⟨hn1, hn2, hdis⟩ := List.nodup_append.1 hnd
      obtain ⟨F1, new1, hr1, hk1, hs1⟩ := hx x (by simp) h
      have hsub : ∀ i ∈ x.kids.ids, i ∈ x.ids := by cases x with | mk i ks => intro j hj; simpa [Node.ids, Node.kids] using .inr hj
      have hxid : x.id ∉ x.kids.ids := by cases x with | mk i ks => exact (List.nodup_cons.1 hn1).1
      have hin : ∀ y ∈ l, ∀ i ∈ y.ids, i ∈ l.flatMap Node.ids := fun y hy i hi => List.mem_flatMap.2 ⟨y, hy, hi⟩
      have hit1 : Iterates (new1 ++ h) (next h x) l := by
        refine iterates_congr hit fun y hy => look_append fun hm => ?_
        exact hdis _ (hsub _ (hk1 _ hm)) _ (hin y hy _ (id_mem_ids y)) rfl
      have hnx : next (new1 ++ h) x = next h x := by
        rw [next_eq, next_eq, look_append]
        exact fun hm => hxid (hk1 _ hm)
      obtain ⟨F2, new2, hr2, hk2, hs2⟩ := loop_ok l (fun y hy => hx y (by simp [hy])) hn2 (new1 ++ h) _ hit1
      refine ⟨F1 + F2 + 1, new2 ++ new1, ?_, ?_, ?_⟩
      · intro fuel hf
        obtain ⟨fuel, rfl⟩ : ∃ k, fuel = k + 1 := ⟨fuel - 1, by omega⟩
        have e1 := hr1 fuel (by omega)
        have e2 := hr2 fuel (by omega)
        simp only [loop, e1, Res.ok_bind, hnx, e2, List.append_assoc]
      · intro i hi
        simp only [List.map_append, List.mem_append] at hi
        rcases hi with hi | hi
        · obtain ⟨y, hy, e⟩ := hk2 i hi; exact ⟨y, by simp [hy], e⟩
        · exact ⟨x, by simp, hk1 i hi⟩
      · intro h' hag s hs
        simp only [List.flatMap_cons, List.mem_append] at hs
        rcases hs with hs | hs
        · refine hs1 h' (fun i hi => ?_) s hs
          rw [hag i (by simp [hsub i hi]), List.append_assoc, look_append]
          intro hm
          obtain ⟨y, hy, e⟩ := hk2 i hm
          refine hdis _ (hsub i hi) _ (hin y hy i ?_) rfl
          cases y with | mk j ks => simpa [Node.ids, Node.kids] using .inr e
        · refine hs2 h' (fun i hi => ?_) s hs
          rw [hag i (by simp only [List.flatMap_cons, List.mem_append]; exact .inr hi), List.append_assoc]

theorem does_two {f g : Nat → Links → Res Links} {i1 i2 : List Nat} {s1 s2 : List Seq} (hf : Does f i1 s1) (hg : Does g i2 s2)
    (hdis : ∀ a ∈ i1, ∀ b ∈ i2, a ≠ b) {k : Nat → Links → Res Links} (hk : ∀ fuel h, k (fuel + 1) h = f fuel h >>= g fuel) :
    Does k (i1 ++ i2) (s1 ++ s2) := by
  intro h
  obtain ⟨F1, new1, hr1, hk1, hs1⟩ := hf h
  obtain ⟨F2, new2, hr2, hk2, hs2⟩ := hg (new1 ++ h)
  refine ⟨F1 + F2 + 1, new2 ++ new1, ?_, ?_, ?_⟩
  · intro fuel hfu
    obtain ⟨fuel, rfl⟩ : ∃ k, fuel = k + 1 := ⟨fuel - 1, by omega⟩
    rw [hk, hr1 fuel (by omega), Res.ok_bind, hr2 fuel (by omega), List.append_assoc]
  · intro i hi
    simp only [List.map_append, List.mem_append] at hi ⊢
    exact hi.symm.imp (hk1 i) (hk2 i)
  · intro h' hag s hs
    rcases List.mem_append.1 hs with hs | hs
    · refine hs1 h' (fun i hi => ?_) s hs
      rw [hag i (by simp [hi]), List.append_assoc, look_append]
      exact fun hm => hdis i hi i (hk2 i hm) rfl
    · refine hs2 h' (fun i hi => ?_) s hs
      rw [hag i (by simp [hi]), List.append_assoc]

theorem does_nil {k : Nat → Links → Res Links} (hk : ∀ fuel h, k (fuel + 1) h = .ok h) : Does k [] [] := by
  intro h
  refine ⟨1, [], ?_, by simp, by simp⟩
  intro fuel hf
  obtain ⟨fuel, rfl⟩ : ∃ k, fuel = k + 1 := ⟨fuel - 1, by omega⟩
  rw [hk]; rfl

theorem does_one {f k : Nat → Links → Res Links} {i : List Nat} {s : List Seq} (hf : Does f i s) (hk : ∀ fuel h, k (fuel + 1) h = f fuel h) :
    Does k i s := by
  intro h
  obtain ⟨F, new, hr, h1, h2⟩ := hf h
  refine ⟨F + 1, new, ?_, h1, h2⟩
  intro fuel hfu
  obtain ⟨fuel, rfl⟩ : ∃ k, fuel = k + 1 := ⟨fuel - 1, by omega⟩
  rw [hk]; exact hr fuel (by omega)

/-- a traversal of more does it too -/
theorem does_mono {f : Nat → Links → Res Links} {i j : List Nat} {s : List Seq} (hf : Does f i s) (hs : ∀ x ∈ i, x ∈ j) : Does f j s := by
  intro h
  obtain ⟨F, new, hr, h1, h2⟩ := hf h
  exact ⟨F, new, hr, fun i hi => hs i (h1 i hi), fun h' hag => h2 h' fun i hi => hag i (hs i hi)⟩

mutual

theorem node_does : ∀ n : Node, n.ids.Nodup → Does (fun fuel => traverse fuel n) n.kids.ids n.seqs
  | .mk i ks, hnd => does_one (kids_does ks (List.nodup_cons.1 hnd).2) fun fuel h => by simp only [traverse]

theorem kids_does : ∀ ks : Kids, ks.ids.Nodup → Does (fun fuel => traverseKids fuel ks) ks.ids ks.seqs
  | .nil, _ => does_nil fun fuel h => by simp only [traverseKids]
  | .node n rest, hnd => by
    simp only [Kids.ids] at hnd
    obtain ⟨h1, h2, h3⟩ := List.nodup_append.1 hnd
    have hn : Does (fun fuel => traverse fuel n) n.ids n.seqs :=
      does_mono (node_does n h1) fun x hx => by cases n with | mk i ks => simpa [Node.ids, Node.kids] using .inr hx
    exact does_two hn (kids_does rest h2) h3 fun fuel h => by simp only [traverseKids]
  | .seq linked s rest, hnd => by
    simp only [Kids.ids] at hnd
    obtain ⟨h1, h2, h3⟩ := List.nodup_append.1 hnd
    have hrest := kids_does rest h2
    cases linked with
    | false =>
      have := does_two (seq_does s h1).2 hrest h3 (k := fun fuel => traverseKids fuel (.seq false s rest))
        fun fuel h => by simp [traverseKids]
      simpa [Kids.ids, Kids.seqs] using this
    | true =>
      have hs : Does (fun fuel h => loop fuel (setNext s none h).1 (setNext s none h).2) s.ids (s :: s.inner) := by
        intro h
        obtain ⟨new1, he, hk1, hi1⟩ := setNext_ok s none h [] h1 .done (by simp)
        have hfirst : (first (Seq.append s .nil) <|> (none : Option Node)) = first s := by
          simp only [first]; cases first s <;> rfl
        rw [hfirst] at he
        have hfirst' : (first s <|> (none : Option Node)) = first s := by cases first s <;> rfl
        rw [hfirst', List.append_nil] at hi1
        obtain ⟨F, new2, hr, hk2, hs2⟩ := loop_ok s.elems (fun x hx => (seq_does s h1).1 x hx) (by rw [← ids_elems]; exact h1) _ _ hi1
        refine ⟨F, new2 ++ new1, ?_, ?_, ?_⟩
        · intro fuel hf
          show loop fuel (setNext s none h).1 (setNext s none h).2 = _
          rw [he]; simp only
          rw [hr fuel hf, List.append_assoc]
        · intro i hi
          rw [List.map_append, List.mem_append] at hi
          rcases hi with hi | hi
          · obtain ⟨x, hx, e⟩ := hk2 i hi
            rw [ids_elems]
            refine List.mem_flatMap.2 ⟨x, hx, ?_⟩
            cases x with | mk j ks => simpa [Node.ids, Node.kids] using .inr e
          · obtain ⟨x, hx, rfl⟩ := hk1 i hi
            exact elem_ids s x hx
        · intro h' hag t ht
          rcases List.mem_cons.1 ht with rfl | ht
          · refine iterates_congr hi1 fun x hx => ?_
            rw [hag _ (elem_ids t x hx), List.append_assoc, look_append]
            intro hm
            obtain ⟨y, hy, e⟩ := hk2 _ hm
            -- `x` is an element, `y`'s kids contain its number
            have key : ∀ l : List Node, (l.flatMap Node.ids).Nodup → x ∈ l → y ∈ l → x.id ∈ y.kids.ids → False := by
              intro l
              induction l with
              | nil => intro _ hx; cases hx
              | cons z l ih =>
                intro hnd hx hy he
                simp only [List.flatMap_cons] at hnd
                obtain ⟨g1, g2, g3⟩ := List.nodup_append.1 hnd
                have hsub : x.id ∈ y.ids := by cases y with | mk j ks => simpa [Node.ids, Node.kids] using .inr he
                rcases List.mem_cons.1 hx with e1 | hx' <;> rcases List.mem_cons.1 hy with e2 | hy'
                · subst e1 e2; cases y with | mk j ks => exact (List.nodup_cons.1 g1).1 he
                · subst e1; exact g3 _ (id_mem_ids x) _ (List.mem_flatMap.2 ⟨y, hy', hsub⟩) rfl
                · subst e2; exact g3 _ hsub _ (List.mem_flatMap.2 ⟨x, hx', id_mem_ids x⟩) rfl
                · exact ih g2 hx' hy' he
            exact key t.elems (by rw [← ids_elems]; exact h1) hx hy e
          · refine hs2 h' (fun i hi => ?_) t (by rw [← inner_elems]; exact ht)
            rw [hag i (by rw [ids_elems]; exact hi), List.append_assoc]
      have := does_two hs hrest h3 (k := fun fuel => traverseKids fuel (.seq true s rest)) fun fuel h => by simp [traverseKids]
      simpa [Kids.ids, Kids.seqs] using this

theorem seq_does : ∀ s : Seq, s.ids.Nodup → (∀ x ∈ s.elems, Does (fun fuel => traverse fuel x) x.kids.ids x.seqs) ∧
    Does (fun fuel => traverseSeq fuel s) s.ids s.inner
  | .nil, _ => ⟨by simp [Seq.elems], does_nil fun fuel h => by simp only [traverseSeq]⟩
  | .list n, hnd => by
    refine ⟨?_, ?_⟩
    · intro x hx
      simp only [Seq.elems, List.mem_singleton] at hx
      rw [hx]
      exact node_does n hnd
    · have hn : Does (fun fuel => traverse fuel n) n.ids n.seqs :=
        does_mono (node_does n hnd) fun x hx => by cases n with | mk i ks => simpa [Node.ids, Node.kids] using .inr hx
      exact does_one hn fun fuel h => by simp only [traverseSeq]
  | .append l1 l2, hnd => by
    simp only [Seq.ids] at hnd
    obtain ⟨h1, h2, h3⟩ := List.nodup_append.1 hnd
    refine ⟨?_, does_two (seq_does l1 h1).2 (seq_does l2 h2).2 h3 fun fuel h => by simp only [traverseSeq]⟩
    intro x hx
    simp only [Seq.elems, List.mem_append] at hx
    rcases hx with hx | hx
    · exact (seq_does l1 h1).1 x hx
    · exact (seq_does l2 h2).1 x hx

end

end Aps.Next
