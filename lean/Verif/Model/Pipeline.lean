import Verif.Spec.Static
/-!
# From schedules to visit procedures

How the phases found for the phyla (`compute_oag`) get to the printer of visit procedures.
-/
namespace Aps.Static

open Aps.Oag Aps.Dnc

/-- A phylum: its attributes in the order of their instances, their directions (for a node that is a left-hand side),
whether they carry no value, and which of them is the shared info (analyze/aps-dnc.c:2153-2196,
`phylum_shared_info_attribute`). -/
structure Phylum where
  attrs : List Nat
  dirs : List Dir
  implicit : Nat → Bool
  info : Nat

/-- analyze/aps-dnc.c:2187-2194 — the summary graph at first: no dependencies. -/
def Phylum.start (q : Phylum) : Phy := ⟨q.attrs.length, q.attrs, false, List.replicate (q.attrs.length * q.attrs.length) 0⟩

/-- analyze/aps-oag.c:310-320; `none` is the fatal error. -/
def attributeSchedule (attrs : List Nat) (sched : List Int) (x : Nat) : Option Int :=
  ((List.range attrs.length).find? fun i => attrs[i]? = some x).map fun i => sget sched i

/-- the `summary_schedule` of a phylum -/
def schedOf (scheds : List (Nat × List Int)) (p : Nat) : Option (List Int) := (scheds.find? fun q => q.1 = p).map (·.2)

/-- codegen/static-impl.cc:563-568 — the greatest phase of a synthesised attribute -/
def maxPhase (sched : List Int) : Nat := sched.foldr (fun s m => max s.toNat m) 0

/-- The phases of all attributes (`attribute_schedule`) and the numbers of visits (`max_phase`, static-impl.cc:563-568). -/
def phylaOf (phyla : List Phylum) (scheds : List (Nat × List Int)) : Phyla where
  sched p x :=
    match phyla[p]?, schedOf scheds p with
    | some q, some sched => attributeSchedule q.attrs sched x
    | _, _ => none
  implicit p x := ((phyla[p]?).map fun q => q.implicit x).getD false
  visits p :=
    match schedOf scheds p with
    | some sched => maxPhase sched
    | none => 0

/-- codegen/static-impl.cc:112-118 — the phase of an instance: of its attribute at the phylum of its node, 0 for locals. -/
def phaseOf {V : Type} (ph : Phyla) (P : Prod V) (inst : Inst V) : Int :=
  match inst.ch with
  | some c =>
    match P.kidPhy[c]? with
    | some (some k) => (ph.sched k inst.attr).getD 0
    | _ => 0
  | none => if inst.lhs then (ph.sched P.lhsPhy inst.attr).getD 0 else 0

/-- The production as `dump_visit_functions` finds it after the analysis: with phases (static-impl.cc:118) and the total
order of its graph (`aug_graph->total_order`, static-impl.cc:437). -/
def Prod.fill {V : Type} (ph : Phyla) (P : Prod V) (t : Cto) : Prod V :=
  { P with insts := P.insts.map fun inst => { inst with ph := phaseOf ph P inst }, cto := t }

end Aps.Static
