# Formal model of cauherk/golang-metrics — design

Target: /repo (Go: root package `metrics`, `config`, `impl`; about 1500 lines of code without comments). Tool: Lean 4.33.0 with single
Mathlib modules. The code is read as text; nothing of it is built or run.

## 1. Layout

* `lean/Verif/Model/*.lean` — the executable model, function by function; every definition cites the file and lines it models and says
  where it simplifies.
* `lean/Verif/Spec/*.lean` — small specifications that do not mention the functions of the model (they may use its data types).
* `lean/Verif/Proofs/*.lean` — lemmas and invariants.
* `lean/Verif/Props/*.lean` — the property theorems, named `Cnn_…`, with `example`s beside them that show a concrete case meets the
  hypotheses. A name ending in `_refuted` is the proof, by a concrete input or schedule, that the naive form of the claim is false of the
  code; the text of the property then states what does hold, and that is what the other theorems of the property prove.
* `lean/Verif/Tests/*.lean` — the repository's own test suite replayed on the model: every `_test.go` file that asserts something (its tests, clock by clock and
  value by value) as `example`s evaluated by the kernel, in binary64 where the test uses floats. These are tests of the transcription, not proofs of properties:
  what the authors checked the code against, the model computes too.
* `properties.jsonl`, `MANIFEST.json` (made by `tools/mkmanifest.py`), `AXIOMS.md` (made by `tools/mkaxioms.py`),
  `seeded/LOG.jsonl` (wrong programs tried against the theorems).

## 2. Trusted base

1. **Lean's kernel** (and that the installed toolchain is the genuine one). No `sorry`-like hole, no `native_decide`/`bv_decide`, no axioms of
   our own. `decide +kernel` is used for concrete schedules in `_refuted` theorems and examples: that is evaluation by the kernel.
2. **Axioms**: only `propext`, `Classical.choice`, `Quot.sound`; `AXIOMS.md` lists them theorem by theorem.
3. **The model is the code**: the transcription from Go to Lean was done by hand. Every definition cites its lines so that it can be compared, and the
   expected values of the repository's tests are reproduced (`Verif/Tests`; two tests at a tenth of their size, random numbers made up, and `math.Exp` replaced by a
   computable function of the same shape in the tests of the decaying reservoir).
4. **The specifications** in `Spec/` and the statements in `Props/` say what the English says.

### What is modelled

Every function of the repository that computes something (checked by a script that compares the cited lines with the functions of the
source; what is left are constructors that only fill in constants, `sort.Interface` boilerplate and interface declarations):

| Go file | Model |
|---|---|
| `impl/counter_impl.go` | `Counter` |
| `impl/bucket_queue.go`, `impl/default_bucket_counter.go` | `BucketQueue`, `BucketCounter`, step by step in `BucketCounterConc` (writers) and `BucketReader`, `BucketReaderWild` (queries), two counters together in `BucketPair` |
| `impl/default_fast_compass.go` | `FastCompass` (also the getter/insert synchronisation), step by step in `FastCompassConc` (records) and `FastCompassReader` (a getter beside them) |
| `ewma.go` | `EWMA`, sequential and step by step; `EWMAStandard` (the three constructors) |
| `impl/default_compass.go` | `Compass`, `CompassType` (reservoir by type); step by step `CompassConc` (ticks), `CompassUpdateConc` (counts, labels, mutexes), `WholeCompass` (all of it in one machine), `WholeBucket` (with a bucket reservoir, which reads a counter of its compass) |
| `impl/default_registry.go`, `impl/default_metric_manager.go` | `Registry` (one step machine for both; a sequential call is an uninterrupted one), `RegistryEnum` (an enumeration beside lookups), `App` (programs that look metrics up and use them), `AppConc` (the same with overlapping uses) |
| `metric_name.go` | `MetricName` with `sync.Once` in steps |
| `config/metric_config.go`, `interval.go`, `metric_level.go` | `Config`, `ConfigJson` (what a JSON document sets) |
| `impl/nop_*.go` | `Nop` |
| `impl/uniform_reservoir.go`, `impl/uniform_snapshot.go` | `UniformReservoir`, `UniformSnapshot`, `UniformHeap` (slices in a heap, for aliasing), `UniformConc` (step by step under the RW mutex) |
| `impl/weighted_snapshot.go` | `WeightedSnapshot` |
| `impl/exponentially_decaying_reservoir.go` | `EDR`, step by step in `EDRConc` |
| `impl/bucket_reservoir.go`, `impl/bucket_snapshot.go` | `BucketReservoir` |
| `clock.go`, `impl/manual_clock.go`, `compare.go` | `Clock` |
| `time.Duration.Seconds()` (Go library) | `Seconds` |
| the places where a product feeds an addition (`ewma.go`, `impl/uniform_snapshot.go`, `impl/weighted_snapshot.go`) | again in `Fused`, with every choice of fused operations |
| the seeding of `math/rand` (`impl/uniform_reservoir.go:72`, `impl/exponentially_decaying_reservoir.go:82-83`) | `Seeded`: generators by their documentation |
| everything that computes with `float64` | again in `Signed`, with signed zeros |
| what callers are handed (slices, maps, metrics) and what writing to it changes | `Handed` |
| the constructors for every int argument | `Construct` |
| struct layouts and the alignment of 64-bit atomic operations | `Layout` |

### What is not modelled, or only by contract

* **Go's memory model.** Plain loads and stores are sequentially consistent atomic steps. The repository has data races (plain reads of
  fields other goroutines write: `latestBucket`, `bq.current`, `lastTick`, `uncounted`, `count`, `enable`); for these Go promises less than
  the model. C88 says exactly which fields these are, and that the other objects have no race in any sequentially consistent execution; by the
  guarantee of the Go memory model for race-free programs (not proved here) those objects then behave sequentially consistently. C101 lets every
  unsynchronised load of a raced-for location return any older value and proves what still holds. C107 goes further for the bucket counter: plain loads in `UpdateN` return anything
  they could (any bucket ever made, with or without its timestamp, any position), and C110 and C22 for whole compasses and moving averages (the tick clock, rates and pending counts appear as any number). For the other objects, objects seen before they are initialised are not covered. C113 carries this over to whole programs. A map read that overlaps a map write crashes a Go program; this is a separate property (C18), not an effect inside the other models.
* **float64.** `F64 = nan | ±inf | fin ℚ` with a rounding `R : Rounding` as a parameter. `R.Lawful`: monotone, odd, idempotent, never NaN, fixes 0
  (exactness on integers is a separate hypothesis where needed). Proved instances: `exact` (ideal arithmetic) and `binary64` (IEEE-754 round to nearest even, with subnormals and overflow; `Props/Float64.lean` proves that it is that, against `Spec/Float64.lean`).
  Every theorem says for which roundings it holds. There is one zero in it; `Model/Signed.lean` has every function that computes with float64 once more with IEEE-754's two zeros, and C106 says that the sign never matters. Go may fuse `x*y+z` on some architectures: `Model/Fused.lean` has the functions in which it can, with every choice (C104); all other theorems are about the code compiled without fusing, as on amd64.
* **`math.Exp`, `math.Sqrt`** are parameters (`Arith`, sqrt as a function) with the laws used stated as hypotheses (`Exact`, positivity, accuracy at float64 arguments). For the square root
  there is also the function IEEE-754 asks for (Model/Sqrt.lean, proved to be the nearest float64), and for `math.Exp` a witness (`EDR.good`).
* **`math/rand`, `time.Now`, clocks** are inputs of each step, arbitrary unless a hypothesis restricts them. That a generator
  is created anew from the clock for every call (so draws are not independent) is in `Model/Seeded.lean` (C105), for a generator that is any function of its seed; C51/C52 count over the words the generator returns.
* **`sort.Slice`/`sort.Sort`** return any sorted permutation; **`sort.Search`** is modelled as the binary search it is; **map iteration order** is any permutation.
* **Workiva skip list** (source not available here) by contract: a list sorted by key without equal keys, insert overwrites an equal key.
* **`sync.Map`** by contract (atomic `Load`/`LoadOrStore`; `Range` visits the entries in any order); **`sync.Mutex`/`RWMutex`** by contract (exclusion, no fairness assumed);
  **`sync.Once`** by its own steps.
* **Allocation, garbage collection, out of memory, goroutine crash propagation** (a panic ends a call; what it changed before stays).
* **Configuration documents**: what `encoding/json` does with the `json` tags is modelled on parsed documents (Model/ConfigJson.lean), by contract: its rules for equal tags, case of keys, type errors and `omitempty`; the text of documents is not. The `yaml` tags (no YAML library is called) are not.
* Sizes: `int` is 64-bit; slices have fewer than 2^63 elements (stated as hypotheses where used). On 32-bit platforms most of the library does not run at all: C111 (`Model/Layout.lean`).

## 3. Modelling decisions

* **int64/int32**: `Int` with explicit two's complement reduction `i64`/`i32` wherever Go arithmetic can wrap; `/` and `%` are `Int.tdiv`/`Int.tmod`
  (towards zero); division by zero is a panic.
* **pointers**: buckets live in a heap (list) and pointers are indices, because `latestBucket` and the ring alias; metrics are identities; slices of the uniform reservoir are heap cells where aliasing matters.
* **panics**: explicit outcomes; state changes before the panic are kept; `defer` is an extra step.
* **concurrency**: `Model/Pool.lean`. A pool is the shared memory plus the local state of every call made so far; a schedule is an arbitrary list of events
  (a new call; the next atomic step of call i with its clock reading or random word). So every theorem over schedules covers any number of goroutines, any
  interleaving, any stop in the middle ("crash point"), and any history.
* **objects behind one lock**: `Model/RWLock.lean` proves linearizability once for every object whose methods run under a mutex or RW mutex; the uniform reservoir and the fast compass are instances.
* **ghost state** (logs of what happened, the `slip` of a weight) is marked as such in the definitions and influences no step.

## 4. Plan per property

| Property | What is modelled | How it is proved |
|---|---|---|
| C01 | counter operations as wrapping adds | induction over the operations; permutation invariance |
| C02–C08 | ring and bucket counter with heap | ring invariant; refinement of any history to the specification "amounts per interval start, newest N" |
| C09 | same | exact characterisation; the documented unit is refuted |
| C10, C11 | `UpdateN` step by step | invariants over all schedules (sum of credits, one bucket per interval) |
| C12 | same | plain claim refuted by a schedule; `Kept`/`Stage` invariant: a bucket whose insertion did not overlap another is in the ring until N newer ones are |
| C13 | same | plain claim refuted; `RaceInv` records which bucket creation overlapped |
| C14–C17 | fast compass over bucket counters | corollary of the C04 refinement plus packing arithmetic modulo 2^64 |
| C18 | lock/lookup/insert/iterate machine | plain claim refuted; invariants: one holder, inserted names new, room; stability in every continuation |
| C19–C21 | `EWMA` over `F64` | induction over tick lists; exact, lawful, or binary64 rounding |
| C22 | `EWMA` step by step | conservation invariant; serialisability by an explicit log; any loads: `Model/EWMAWild.lean`, the same invariants |
| C23–C25, C31 | compass | induction over histories; iff characterisation of panics |
| C26–C29 | compass rates and tick schedule | exact formulas for every history and rounding; refutations of the naive claims |
| C30 | tick machine | invariants over schedules, link to the sequential model |
| C32–C38 | registry machine | invariants over schedules; sequential calls as uninterrupted ones; tight overshoot bound |
| C39–C41 | `MetricName` | machine invariant with `sync.Once`; list lemmas; iff characterisations |
| C42, C43 | manager (same machine) | invariants |
| C44 | no-ops | induction |
| C45–C47 | configuration | case analysis over all settings |
| C48–C50, C53 | uniform reservoir, with heap for aliasing | invariants; frame lemmas |
| C51, C52 | random position, reservoir sampling | counting accepted words; induction on the stream, every k-subset equally likely; over words (`Spec/Words.lean`): each position is hit by equally many word lists, so counting tables is counting positions (`Props/UniformWords`) |
| C54–C56 | uniform snapshot | order arithmetic over ℚ and int64 wrap |
| C57–C62 | weighted snapshot incl. binary search | search lemmas, order arithmetic, scaling invariance |
| C63–C68 | decaying reservoir, sequential and step by step | invariants; top-k refinement (`TopK` in Spec/EDR) |
| C69 | step by step | simulation with shifted times: a raced update counts as `slip` seconds later |
| C70, C71, C76, C77 | bucket reservoir, compass by reservoir type | exact set of possible snapshots; non-interference; induction over histories |
| C72, C73, C78 | clocks, delta comparison | induction; binary64 counterexample |
| C74 | `Duration.Seconds` in binary64 | error analysis of the rounding; counterexample beyond |
| C75 | decaying reservoir + weighted snapshot | composition of C64/C66 with C61/C62 |
| C79, C80 | guarded objects step by step | generic linearizability theorem instantiated |
| C81, C82 | a query load by load among updates | sandwich between states during the call |
| C83 | `UpdateWithError` step by step with both mutexes | counting invariants, potential function for progress |
| C84 | programs over registry, manager and metrics | product invariant: object state = history of its own uses |
| C85 | `LastUpdateTime` of compass and fast compass | refinement from C09 |
| C86 | the whole compass as one machine whose calls step through the machines of its parts (`WholeCompass`, `WholeBucket`) | each part is a run of its own machine, indices of calls in parts are permutations; then C22, C30, C79, C83, C69 |
| C87 | the machines of all the parts, and the whole compass (`Spec/Progress`: `WaitFree`, `NeverStuck`) | wait-free: a rank that every own step lowers; free of deadlock: the lock holder (found through the invariant) can always reach its unlock, then induction on the number of calls under way; overtaking schedules built by induction for the exception |
| C88 | the memory accesses of the steps of the machines, with their mode (`Model/Accesses`); `Spec/Races`: conflicts, `RaceFree` | first that the accesses are honest (a step changes nothing it does not write, depends on nothing it does not access); then the lock invariants (at most one holder) and inspection of pairs of places; schedules exhibited for the races that do occur |
| C89 | `EDR` with the draws of a history replaced (`Spec/EDRFair`: `redraw`, `holding`, `NoTies`) | being held is having fewer than `size` higher priorities (from C64's top-k); swapping the two draws maps the draws that keep the older value injectively into those that keep the newer |
| C90 | an enumeration (`Model/RegistryEnum`: `sync.Map.Range` by its contract, order and late entries chosen by the environment) beside the lookups of `Registry` | invariant over the interleaving: what is visited is in the map, entries stay (C32), the result is the visited entries that match |
| C91 | every machine in small steps against the sequential model of the same function (`Spec/Alone`) | a calculus of uninterrupted runs (`Proofs/Alone`: from this state and place, whenever the call has ended, this holds), each step rewritten by the machine's definition; histories by induction |
| C92 | the constructors of `ewma.go` (`Model/EWMAStandard`) in binary64, against an ideal average over the reals (`Spec/EWMAIdeal`) | absolute error of one rounded step (`Proofs/FloatError`), contraction by `1 - alpha` so that the errors form a geometric series (induction over the ticks); perturbation of the smoothing constant from the assumed accuracy of `math.Exp` |
| C93 | `GetMean`, `GetStdDev`, `GetMeanRate` in binary64 against `Spec/Statistics` (exact rationals, real square root) | relative error of one rounded operation (`Proofs/StatError`), an error bound for rounded sums by induction over the list, perturbation of squares and quotients (`Proofs/VarianceError`, `Proofs/WeightedError`); the rounding and the square root against `Spec/Float64` (`Props/Float64`, `Props/Sqrt`) |
| C94 | `GetValue` and the named percentiles in binary64 against interpolation / cumulated weights (`Spec/Statistics`) | interpolation as a sum of ramps is Lipschitz in the position (induction over the list); the rounded cumulated weights stay sorted and close to the exact ones, binary search brackets the quantile |
| C95 | success, error-code and addon counters of a compass against `Spec/PerInterval` | the compass invariant gives each counter's own history (C24), C03 the contents |
| C96 | names and tag maps in a heap (`Model/NameHeap`) | ownership invariant by induction over the program; refutations by witness |
| C97 | the two counters of a bucket compass in small steps and a snapshot beside them (`Model/BucketPair`) | projection to the two counters' own schedules, one-interval invariant, invariant of the reader with sets of calls; refutations by witness schedules; for the whole compass a simulation: each of its steps is at most one step of the pair |
| C98 | Spec/Memory.lean defines what is reachable (fields and live locals) | invariants over the existing small-step machines of the bucket counter, the whole compass and the fast compass; induction on n for the two refutations |
| C99 | Model/AppConc.lean: the program of Model/App.lean with objects in small steps (begin a call / step of call j) | App.object, now generic over the kit of metric objects, reduces the object behind a name to a run of its own machine; then the theorems on that machine apply |
| C100 | Spec/Fair.lean (Fair, FairlyEnds): infinite schedules as functions on the naturals | a well-founded measure that never grows, and helpful calls whose turn makes it smaller, which stay helpful until then (Proofs/Fair.lean); for the compass a lexicographic one out of those of the parts; for a program (Spec/FairApp.lean, Model/AppConc.lean) the events of others are turns of a call that does not exist |
| C101 | Spec/Stale.lean: the machine with its history; a step that only loads, and loads something raced for without synchronisation, sees any earlier memory not before the call's own last store there | the invariants of C08, C21, C22, C32-C38, C63-C69 again, with what an earlier memory has in common with the present one (Proofs/Stale.lean) |
| C102 | Model/Handed.lean: memory with pointers - entries of a registry, counters of a compass, backing arrays of slices - and callers who write through them | invariant: a map handed out refers to the registry's entries only under their own key; simulation by the models without pointers; difference of two runs of the compass, one with and one without the writes |
| C103 | Model/ConfigJson.lean: the table of json tags and encoding/json's rules on parsed documents | each getter is changed only by its own field; induction over the document; numerals by digits; round trip field by field |
| C104 | Model/Fused.lean: the same functions with a choice per place (in loops: per iteration) of whether the product is rounded before the addition | the proofs of C20, C21, C92, C54, C55, C93, C94 redone with a product that is either rounded or exact; the refutation by evaluating binary64; nothing fused, and snapshots with at most one value: `Props/FusedBase` |
| C105 | Model/Seeded.lean: a generator is any function from seeds to numbers that agrees on seeds equal modulo 2^31-1; updates take the reading of time.Now() instead of the numbers | uniform: the effect of an update is a function of count, length and words, so the positions held are; decaying: induction over updates between rescales on the finite set of priorities held, with C64's step relation |
| C106 | Model/Signed.lean: float64 with signed zeros (IEEE-754, 6.3), and every function of the repository that computes with float64 once more over it | dropping the sign commutes with every operation except division by -0; every divisor is a converted integer, a draw or a sum that starts at +0; a sum of float64 values is -0 only if both are (all are multiples of the least positive one) |
| C107 | Model/BucketCounterWild.lean: `UpdateN` with the results of plain loads supplied by the environment | only bounds of pointers and positions are needed for the sums (invariant over all schedules); with visible timestamps the invariant of C10/C11 survives arbitrary pointers |
| C108 | rescaleLoop of Model/EDR.lean with any lawful rounding | invariant of the loop: collapsed scaled prefix ++ unscaled rest; needs that multiplication by f ≤ 1 is monotone and does not enlarge representable keys (invariant over histories) |
| C109 | Model/EDR.lean with A.R = binary64 and GoodExp (Spec/EDRFloat.lean) | induction over histories: samples are matched with distinct updates, the error of a weight grows by 2^-40 per rescale; mean, percentiles, deviation by C93/C94 and a perturbation bound in ℝ |
| C110 | Model/CompassWild.lean, Model/WholeWild.lean: the machines of C84-C86 with every unsynchronised load returning an input of the step | simulation of each part by its own machine (CompassWild, TickWild), then the invariant of C86 redone for the composition; C110_covers by induction over the schedule: each ordinary step is a wild one; termination under a fair scheduler with the measure of C100 |
| C111 | Model/Layout.lean: sizes, alignments and offsets of the structs with 64-bit atomics, and the calls with a check before each such operation | offsets by evaluation, addresses for every base by arithmetic, histories by induction |
| C112 | Model/Construct.lean: the constructors with make, the filling loop and the first index as partial functions of int arguments | the loop by induction, the rest by cases |
| C113 | Model/WholeBucketWild.lean: the bucket reservoir with such loads; Model/AppWild.lean: the program of C99 with such compasses | the generic reduction of C99 from a name to a run of the object's machine, then C110; the runs of C99 step by step; coming to rest under a fair scheduler as in C100, from C110 |
| C114 | the model of the decaying reservoir (Model/EDR.lean); Spec/EDRDecay.lean: chances as counts over all sequences of draws | a value is held iff fewer than `size` priorities are higher (C64, C89); pairs of draws counted, Markov; zero draws and ties counted apart |
| C115 | the model of the decaying reservoir (Model/EDR.lean); Spec/EDRTop.lean: the samples as float64 computes them | induction over the history: the list held is the highest part of all samples; relative errors of weights (C109) and of the quotient; ties of rounded priorities: at most five neighbouring draws |
| C116 | the model of the uniform reservoir and its snapshot; Spec/Estimate.lean: mean, variance, shares and quantiles of a list | induction over the stream: sums over all sequences of positions of the sample's weight, of products of two weights and of the binomial coefficients of the number of sampled values in a set; Markov's and Chebyshev's inequality; transfer to tables of words as in C52 |
| C117 | the model of the decaying reservoir and the weighted snapshot; Spec/EDRSecond.lean: `Off`, `AtMost`, `timeMean` | the positions kept are those of the smallest draws; permuting the draws of updates of one second permutes the positions kept; the uniform reservoir moves values without looking at them, so C52 extends to streams with equal values; C116 for the bounds; for the second part C75 and the chance of C114 |
| C118 | Model/CompassType.lean; Spec/CompassEstimate.lean: `durations`, `reword`, `redrawn`, `sampling`, `valuesIn` | the reservoir inside a compass sees exactly the durations, in order, whether the calls return or not (step_reservoir); changing the words of the calls changes the words of the reservoir and nothing else; then C116 and C117 |
| C119 | Model/UniformConc.lean; Spec/UniformConcFair.lean: `Schedule`, `turns`, `supplied`, `updates`; Spec/Words.lean: `wordLists` | control flow does not depend on the positions drawn, only on which words are rejected (ghost_apply); invariant: the reservoir is the sequential one for the values logged and the positions drawn (j_step); every possible sequence of positions comes from the same number of words (cnt_eq, by induction over the schedule with C51); double counting against the sequences of positions of C52 (count_good); the classes of words with the same order are put together (by_key); then C52, C116 |
| C120 | Model/CompassType.lean; Spec/CompassDecay.lean: `Steady`, `FirstHour`, `measured`, `HasRecent`; Spec/EDRFloat.lean: `decayedMean`, `decayedTotal`, `decayedVariance` | the reservoir of a compass sees the durations and the snapshots (trun_edr); the default rate is the float64 next to 0.015 (defaultAlpha_fin); the landmark is a reading of the clock (startTime_mem), so that 'recent' can be said in terms of the snapshot; then C109 and C115 with the constants of a compass |
| C121 | Model/AppAny.lean: `anyStep` over `callStep`, loads as inputs | a step is one of Model/Registry.lean's, or one of those with another switch, or keeps or replaces the metric made by the no-op (any_cases); each keeps the registry invariants, from which identity follows; the object behind a result is a new object and the uses through results of that key (object); then the facts about one compass that C113 rests on; termination as for C113 (Spec/FairAppAny.lean) |
| C122 | C107_reported: an interval is one bucket, whose content is the sum of the calls that added to it; different intervals are different buckets, and a call adds to one; in a compass each counter is a bucket counter in a run of its own (C110), one call of 1 for each call of the compass; for a query beside the calls (Model/BucketReaderWild.lean) the same with what was added up to the moment of each load, which is part of what was added in the end |
| C123 | C15: an interval reports number and sum (modulo the packing) of the calls credited to it; a call is credited to one interval, so parts by interval do not overlap; number and sum of a part are at most those of all, so the moduli do nothing; under concurrency an invariant of the small steps (Proofs/FastCats.lean): at every moment each category's counter is a bucket counter in some run of its own, whose calls are some of the Record calls for that category, so C122_counter applies to it, and what a query at that category sees is a run of that counter with a query beside it (watch_projects; wild_projects if the query's loads may return anything that was there), so C122_query does; packed sums below the limits decode exactly; for the program with the object behind the name (C121) |

Nothing in the list had to be left out as inexpressible. Fairness of the scheduler is assumed only in C100; the other progress properties are stated as "some call can
move" plus a bound on the number of moves.

## 5. Where the code disagrees with its documentation or with what one would expect

Each is a `_refuted` theorem with a concrete witness, or (C111: compasses, averages and decaying reservoirs on 32-bit platforms) a theorem that says so: C06 (placeholder visible below -1000), C09 (seconds where milliseconds are documented), C12, C13 (lost and
misplaced buckets under races), C18 (getter iterates without lock), C25 and C37 (panics), C26 (rates become +Inf/NaN because the EWMA interval is 0 in a compass), C27 (mean rate mixes ms and ns),
C29 (tick schedule for intervals other than 5 s), C30 (two winners of one tick), C35, C36 (limit), C40, C41 (hash keys), C45–C47 (configuration),
C50, C54, C56 (uniform snapshots), C60 (weighted quantile), C63 (`Size()` under races), C66 (backwards clock), C68, C69 (double rescale, stale weight), C70 (bucket reservoir mixes intervals), C73, C74 (rounding), C78 (not monotonic), C81 (query overlapping updates).
