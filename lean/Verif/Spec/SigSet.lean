/-
Specification vocabulary for signal sets.
-/
import Verif.Model.SigSet
import Verif.Spec.Sync
import Verif.Spec.Tags

namespace Razorback.Spec
open Razorback
variable {α κ : Type _}

/-- What every signal set is supposed to be: a time-sorted sequence of well-formed runs that do not overlap,
over the same channels, with tags that designate existing channels. -/
structure SetOK (S : SigSet α κ) : Prop where
  wf : ∀ r ∈ S.runs, WF r
  rate : ∀ r ∈ S.runs, r.rate ≠ 0
  chans : ∀ r ∈ S.runs, ∀ r' ∈ S.runs, r.data.length = r'.data.length
  sorted : S.runs.Pairwise (fun a b => a.start ≤ b.start)
  disjoint : S.runs.Pairwise (fun a b => lastTime a ≤ b.start)
  tags : ∀ k v, S.tags.getItem k = .ok v → LegalName k ∧ v ≠ [] ∧ ∀ r ∈ S.runs, ∀ i ∈ v, i < r.data.length

/-- The same when times are computed with roundings: the runs do not overlap according to the value of their
property `stop`. -/
structure SetOKAs [Rnd] (S : SigSet α κ) : Prop where
  wf : ∀ r ∈ S.runs, WF r
  rate : ∀ r ∈ S.runs, r.rate ≠ 0
  chans : ∀ r ∈ S.runs, ∀ r' ∈ S.runs, r.data.length = r'.data.length
  sorted : S.runs.Pairwise (fun a b => a.start ≤ b.start)
  disjoint : S.runs.Pairwise (fun a b => ∃ t, a.stop = .ok t ∧ t ≤ b.start)
  tags : ∀ k v, S.tags.getItem k = .ok v → LegalName k ∧ v ≠ [] ∧ ∀ r ∈ S.runs, ∀ i ∈ v, i < r.data.length

/-- Names that collide with the attributes and parameters the implementation uses on tag mappings. -/
def reserved : List String := ["indices", "keys", "items", "n", "self"]

/-- Tags without such a name. -/
def Plain (t : Tags) : Prop := ∀ k ∈ reserved, t.getItem k = .error .key

/-- Same tags with the same values, whatever the size of the range. -/
def SameTags (t t' : Tags) : Prop := ∀ k, t.getItem k = t'.getItem k

/-- What tag `k`, position `j`, designates in run `r`: timed samples and calibration. -/
def designated (t : Tags) (r : Sync α κ) (k : String) (j : Nat) : Option (List (ℚ × α) × κ) :=
  match t.getItem k with
  | .ok v => (v[j]?).bind (fun i => (channels r)[i]?)
  | .error _ => none

end Razorback.Spec

namespace Razorback.Spec
open Razorback
variable {α κ : Type _}

/-- The signal sets a program can obtain through the public operations, from any well-formed `SyncSignal`s
(`Props.C07_wellformed`: all constructed ones are), editing tags in place included; whatever the rounding of the times that is
used all along (exact arithmetic where none is given). -/
inductive Reach [Rnd] [One κ] : SigSet α κ → Prop
  | new {S : SigSet α κ} (tags : TagsArg) (args : List (SigArg α κ)) (hs : ∀ s, .sync s ∈ args → WF s)
      (hS : ∀ T, .set T ∈ args → Reach T) (h : SigSet.new tags args = .ok S) : Reach S
  | join {T S : SigSet α κ} (args : List (SigArg α κ)) (hT : Reach T) (hs : ∀ s, .sync s ∈ args → WF s)
      (hS : ∀ T, .set T ∈ args → Reach T) (h : T.join args = .ok S) : Reach S
  | merge {T S : SigSet α κ} (others : List (SigSet α κ)) (hT : Reach T) (hS : ∀ T ∈ others, Reach T)
      (h : T.merge others = .ok S) : Reach S
  | selectChannels {T S : SigSet α κ} (sel : ChanSel) (hT : Reach T) (h : T.selectChannels sel = .ok S) : Reach S
  | selectRuns {T S : SigSet α κ} (r : RunIdx) (hT : Reach T) (h : T.selectRuns r = .ok S) : Reach S
  | extractT {T S : SigSet α κ} (a b : ℚ) (exclude : Bool) (hT : Reach T) (h : T.extractT a b exclude = .ok S) :
      Reach S
  | mergeConsecutive {T S : SigSet α κ} (hT : Reach T) (h : T.mergeConsecutive = .ok S) : Reach S
  | setTags {T S : SigSet α κ} (v : TagsArg) (hT : Reach T) (h : T.setTags v = .ok S) : Reach S
  | editTags {T : SigSet α κ} (ops : List Tags.Op) (hT : Reach T) : Reach { T with tags := T.tags.run ops }

end Razorback.Spec

namespace Razorback.Spec
open Razorback
variable {α κ : Type _}

/-- Run `r` under tags `t` is run `r'` under tags `t'`: same clock, and every tag position designates the
same timed samples and calibration. -/
structure SameRun (t : Tags) (r : Sync α κ) (t' : Tags) (r' : Sync α κ) : Prop where
  rate : r.rate = r'.rate
  start : r.start = r'.start
  size : r.size = r'.size
  chans : ∀ k j, designated t r k j = designated t' r' k j

/-- The clock of a run. -/
def clock (r : Sync α κ) : ℚ × ℚ × Nat := (r.rate, r.start, r.size)

/-- The runs of an operand of `join`. -/
def operandRuns : SigArg α κ → List (Sync α κ)
  | .sync s => [s]
  | .set S => S.runs

end Razorback.Spec
