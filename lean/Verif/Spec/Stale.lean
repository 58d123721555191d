import Verif.Spec.Races
/-! # Machines whose unsynchronised loads may return old values

The interleaving semantics of Model/Pool.lean lets every load return what was stored last. Go's memory model does not promise that for an ordinary load of a
location that other goroutines write to at the same time (`Footprint.RaceAt`): such a load may return an older value. Here is the same machine with this
freedom. Every moment of an execution is kept; a step that only loads, and loads one of the locations in `racy` without synchronisation, may see the memory
as it was at any earlier moment - but a location not as it was before the call's own last store or atomic operation on that very location. That is all that is
demanded: nothing orders the values of different locations, or two loads of the same one. Atomic operations, stores, and loads that hold a lock act on the
memory as it is. (Not modelled: stores that become visible in another order than they are made, and a pointer that is seen before what it points to.) -/
namespace GoMetrics

/-- A memory with its history: `past` are the earlier contents, latest first. Time is the number of steps made. -/
structure Aged (S : Type) where
  now : S
  past : List S

/-- The memory at time `t`; the present one, if `t` is not in the past. -/
def Aged.at {S : Type} (m : Aged S) (t : Nat) : S := (m.now :: m.past).getD (m.past.length - t) m.now

/-- What has been so far, and is. -/
def Aged.all {S : Type} (m : Aged S) : List S := m.now :: m.past

namespace Footprint
variable {S C A I Loc : Type} [DecidableEq Loc] (F : Footprint S C Loc)

/-- The next step of the call only loads, without synchronisation, and something that others may be writing to. -/
def loads (racy : Loc → Bool) (s : S) (c : C) : Bool :=
  (F.acc s c).all (fun a => !a.write && decide (a.mode = .plain)) && (F.acc s c).any (fun a => racy a.loc)

/-- The earliest moment the loads of the next step may return values of; `own l` is when the call itself last stored to `l` or accessed it atomically. -/
def earliest (racy : Loc → Bool) (own : Loc → Nat) (s : S) (c : C) : Nat :=
  (((F.acc s c).filter fun a => racy a.loc).map fun a => own a.loc).foldr max 0

/-- `own` after the next step of the call, which ends at time `t`. -/
def touched (own : Loc → Nat) (t : Nat) (s : S) (c : C) (l : Loc) : Nat :=
  if (F.acc s c).any (fun a => decide (a.loc = l) && (a.write || decide (a.mode = .atomic))) then t else own l

/-- The machine `M` with old values for unsynchronised loads of the locations `racy`. The environment of a step supplies also the moment such a load sees. -/
def stale (M : Machine S C A I) (racy : Loc → Bool) : Machine (Aged S) (C × (Loc → Nat)) A (I × Nat) where
  call a := (M.call a, fun _ => 0)
  step m e c :=
    let s := if F.loads racy m.now c.1 then m.at (max e.2 (F.earliest racy c.2 m.now c.1)) else m.now
    let r := M.step s e.1 c.1
    (⟨if F.loads racy m.now c.1 then m.now else r.1, m.now :: m.past⟩, (r.2, F.touched c.2 (m.past.length + 1) m.now c.1))

/-- The state after a schedule, from the initial memory `s0`. -/
def staleRun (M : Machine S C A I) (racy : Loc → Bool) (s0 : S) (es : List (Ev A (I × Nat))) : Pool S C :=
  let p := (F.stale M racy).run (Machine.start ⟨s0, []⟩) es
  ⟨p.shared.now, p.calls.map Prod.fst⟩

/-- All unsynchronised loads of the locations `racy` are in steps that may see old values, and such a step changes nothing. -/
structure Covers (M : Machine S C A I) (racy : Loc → Bool) : Prop where
  loads : ∀ s c, ∀ a ∈ F.acc s c, racy a.loc = true → a.write = false → a.mode = .plain → F.loads racy s c = true
  pure : ∀ s x c, F.loads racy s c = true → (M.step s x c).1 = s

end Footprint
end GoMetrics
