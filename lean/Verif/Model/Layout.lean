import Verif.Model.Compass
import Verif.Model.EDR
/-! # Struct layouts and 64-bit atomic operations

"On ARM, 386, and 32-bit MIPS, it is the caller's responsibility to arrange for 64-bit alignment of 64-bit words accessed atomically via the primitive atomic
functions. The first word in an allocated struct, array, or slice; in a global variable; or in a local variable [...] can be relied upon to be 64-bit aligned"
(documentation of sync/atomic, "Bugs"). An operation on a word that is not aligned panics. The fields of a struct lie in the order of their declaration,
each at the first address after the previous one that its alignment allows (what the gc compiler does). -/
namespace GoMetrics

/-- A platform: the size of a pointer and of `int`, and the alignment of `int64` and `float64`. -/
structure Arch where
  word : Nat
  wide : Nat
  deriving DecidableEq

/-- amd64, arm64, ppc64, riscv64, s390x, mips64 -/
def Arch.bits64 : Arch := ⟨8, 8⟩
/-- 386, arm, mips -/
def Arch.bits32 : Arch := ⟨4, 4⟩

namespace Layout

/-- Size and alignment of a type. -/
structure Ty where
  size : Nat
  align : Nat
  deriving DecidableEq

/-- `bool` -/
def bool : Ty := ⟨1, 1⟩
/-- `int64`, `float64`, `time.Duration` -/
def wide (A : Arch) : Ty := ⟨8, A.wide⟩
/-- `int`, pointers, maps (a map is a pointer) -/
def word (A : Arch) : Ty := ⟨A.word, A.word⟩
/-- interfaces: type and data -/
def iface (A : Arch) : Ty := ⟨2 * A.word, A.word⟩
/-- `sync.Mutex`: an `int32` and a `uint32` -/
def mutex : Ty := ⟨8, 4⟩
/-- `sync.RWMutex`: a `Mutex`, two `uint32` and two `int32` -/
def rwMutex : Ty := ⟨24, 4⟩

/-- The first multiple of `a` that is not below `n`. -/
def roundUp (n a : Nat) : Nat := (n + a - 1) / a * a

/-- Where the fields lie if the first may begin at `o`. -/
def offsets (o : Nat) : List (String × Ty) → List (String × Nat)
  | [] => []
  | (f, t) :: l => (f, roundUp o t.align) :: offsets (roundUp o t.align + t.size) l

/-- The end of the last field. -/
def fieldsEnd (o : Nat) : List (String × Ty) → Nat
  | [] => o
  | (_, t) :: l => fieldsEnd (roundUp o t.align + t.size) l

/-- A struct is aligned as its most strictly aligned field, and its size is a multiple of that. -/
def struct (fields : List (String × Ty)) : Ty :=
  ⟨roundUp (fieldsEnd 0 fields) ((fields.map fun f => f.2.align).foldl max 1), (fields.map fun f => f.2.align).foldl max 1⟩

/-- The address of a field of a struct at `base`. -/
def address (base : Nat) (fields : List (String × Ty)) (f : String) : Nat := base + ((offsets 0 fields).lookup f).getD 0

/-- Does a 64-bit atomic operation on this address panic? -/
def faults (A : Arch) (addr : Nat) : Bool := A.word == 4 && addr % 8 != 0

/-- impl/counter_impl.go:28-30 -/
def counterImpl (A : Arch) : List (String × Ty) := [("count", wide A)]

/-- impl/bucket_queue.go:24-33 -/
def bucket (A : Arch) : List (String × Ty) := [("timestamp", wide A), ("count", wide A)]

/-- ewma.go:52-60 -/
def ewma (A : Arch) : List (String × Ty) :=
  [("initialized", bool), ("rate", wide A), ("uncounted", wide A), ("alpha", wide A), ("interval", wide A), ("mutex", mutex)]

/-- impl/default_compass.go:32-78; the averages are values, not pointers -/
def compass (A : Arch) : List (String × Ty) :=
  [("totalCount", iface A), ("successCount", iface A), ("errorCodes", word A), ("errorCodesMutex", mutex), ("addons", word A), ("addonsMutex", mutex),
    ("m1Rate", struct (ewma A)), ("m5Rate", struct (ewma A)), ("m15Rate", struct (ewma A)), ("startTime", wide A), ("lastTick", wide A), ("uncounted", wide A),
    ("clock", iface A), ("maxErrorCodeCount", word A), ("maxAddonCount", word A), ("bucketInterval", wide A), ("numberOfBucket", word A), ("reservoir", iface A)]

/-- impl/exponentially_decaying_reservoir.go:57-66 -/
def edr (A : Arch) : List (String × Ty) :=
  [("values", word A), ("rwMutex", rwMutex), ("alpha", wide A), ("size", wide A), ("count", wide A), ("startTime", wide A), ("nextScaleTime", wide A),
    ("clock", iface A)]

/-- The fields on which there are 64-bit atomic operations: impl/counter_impl.go:46-58, impl/default_bucket_counter.go:123, ewma.go:63, 85-87,
impl/default_compass.go:181, 196-203, impl/exponentially_decaying_reservoir.go:158. (The other atomic operations are on pointers and on an `int32`.) -/
def atomics (A : Arch) : List (List (String × Ty) × String) :=
  [(counterImpl A, "count"), (bucket A, "count"), (ewma A, "uncounted"), (compass A, "lastTick"), (compass A, "uncounted"), (edr A, "nextScaleTime")]

end Layout

open Layout

namespace EWMA

/-- ewma.go:62-64 `Update` of an average at `base` -/
def updateOn (A : Arch) (base : Nat) (e : EWMA) (n : Int) : Res EWMA :=
  if faults A (address base (ewma A) "uncounted") then .panic e else .ok (e.update n)

/-- ewma.go:82-90 `Tick`: the compare-and-swap comes first -/
def tickOn (R : Rounding) (A : Arch) (base : Nat) (e : EWMA) : Res EWMA :=
  if faults A (address base (ewma A) "uncounted") then .panic e else .ok (e.tick R)

/-- One API call (ewma.go:62-90); `TickN` uses no atomic operation. -/
def stepOn (R : Rounding) (A : Arch) (base : Nat) (e : EWMA) : Op → Res EWMA
  | .update n => e.updateOn A base n
  | .tick => e.tickOn R A base
  | .tickN c => .ok (e.tickN R c)

/-- A history of API calls (ewma.go:62-90) whose panics the callers recover from. -/
def runOn (R : Rounding) (A : Arch) (base : Nat) (e : EWMA) (h : List Op) : EWMA := h.foldl (fun e o => (e.stepOn R A base o).state) e

end EWMA

namespace Compass
variable {σ X : Type}

/-- impl/default_compass.go:190-211 `tickIfNecessary` of a compass at `base`: the operation on `lastTick` (196) comes before those on `uncounted` (201-202), which the loop
reaches because the age is more than one tick. -/
def tickIfNecessaryOn (R : Rounding) (A : Arch) (base : Nat) (c : Compass σ) (tick : Int) : Res (Compass σ) :=
  if c.age tick > tickInterval then
    if c.bucketInterval = 0 then .panic c
    else if faults A (address base (compass A) "lastTick") then .panic c
    else if faults A (address base (compass A) "uncounted") then .panic { c with lastTick := i64 (tick - (c.age tick).tmod c.bucketInterval) }
    else c.tickIfNecessary R tick
  else .ok c

/-- impl/default_compass.go:181 -/
def addUncountedOn (A : Arch) (base : Nat) (c : Compass σ) : Res (Compass σ) :=
  if faults A (address base (compass A) "uncounted") then .panic c else .ok c.addUncounted

/-- impl/default_compass.go:179-184 `Update`. The counters and the reservoir are other objects; what they do is what they do elsewhere (their own atomic operations:
`Layout.atomics`). -/
def updateOn (R : Rounding) (A : Arch) (base : Nat) (S : ReservoirImpl σ X) (c : Compass σ) (env : Env X) (duration : Int) : Res (Compass σ) :=
  (c.tickIfNecessaryOn R A base env.tick).andThen fun c =>
  (c.addUncountedOn A base).andThen fun c =>
  ((c.totalCount.update env.tTotal).lift fun b => { c with totalCount := b }).andThen fun c =>
  (S.updateN c.reservoir env.x duration).lift fun r => { c with reservoir := r }

/-- impl/default_compass.go:148-168 `UpdateWithError` -/
def updateWithErrorOn (R : Rounding) (A : Arch) (base : Nat) (S : ReservoirImpl σ X) (c : Compass σ) (env : Env X) (duration : Int)
    (isSuccess : Bool) (errorCode addon : String) : Res (Compass σ) :=
  (c.updateOn R A base S env duration).andThen fun c =>
  (c.successStep env.tSuccess isSuccess).andThen fun c =>
  (c.errorStep env.tErrNew env.tErr errorCode).andThen fun c =>
  c.addonStep env.tAddonNew env.tAddon addon

/-- One call (impl/default_compass.go:84-106, 148-184). -/
def stepOn (R : Rounding) (A : Arch) (base : Nat) (S : ReservoirImpl σ X) (c : Compass σ) (env : Env X) : Op → Res (Compass σ)
  | .update d => c.updateOn R A base S env d
  | .updateWithError d s e a => c.updateWithErrorOn R A base S env d s e a
  | .readRate => c.tickIfNecessaryOn R A base env.tick

/-- A history of calls (impl/default_compass.go:84-106, 148-184) whose panics the callers recover from. -/
def runOn (R : Rounding) (A : Arch) (base : Nat) (S : ReservoirImpl σ X) (c : Compass σ) (h : List (Env X × Op)) : Compass σ :=
  h.foldl (fun c e => (c.stepOn R A base S e.1 e.2).state) c

end Compass

namespace EDR

/-- impl/exponentially_decaying_reservoir.go:131-136, 156-182 `rescaleIfNeeded` of a reservoir at `base`: the compare-and-swap (158) comes before the lock -/
def rescaleIfNeededOn (Ar : Arith) (A : Arch) (base : Nat) (r : EDR) (tick time : Int) : Res EDR :=
  if r.nextScaleTime ≤ tick then
    if faults A (address base (edr A) "nextScaleTime") then .panic r else .ok (rescaleIfNeeded Ar r tick time)
  else .ok r

/-- impl/exponentially_decaying_reservoir.go:75-124 `UpdateN`: what comes after `rescaleIfNeeded` is what a call does that is not due for a rescale -/
def updateNOn (Ar : Arith) (A : Arch) (base : Nat) (r : EDR) (env : Env) (value : Int) : Res EDR :=
  (rescaleIfNeededOn Ar A base r env.tick env.scaleTime).andThen fun r =>
    let w := weight Ar r.alpha (i64 (currentTimeInSecond env.time - r.startTime))
    record r (priority Ar w env.u) value w

/-- One call (impl/exponentially_decaying_reservoir.go:75-124, 196-201). -/
def stepOn (Ar : Arith) (A : Arch) (base : Nat) (r : EDR) : Op → Res EDR
  | .updateN env v => updateNOn Ar A base r env v
  | .getSnapshot tick t => rescaleIfNeededOn Ar A base r tick t

/-- A history of calls (impl/exponentially_decaying_reservoir.go:75-124, 196-201) whose panics the callers recover from. -/
def runOn (Ar : Arith) (A : Arch) (base : Nat) (r : EDR) (h : List Op) : EDR := h.foldl (fun r o => (stepOn Ar A base r o).state) r

end EDR
end GoMetrics
