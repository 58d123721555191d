import Verif.Model.Registry
/-! # Enumerations (impl/default_registry.go:39-74) running beside lookups

`sync.Map.Range` by its contract: no key is visited more than once, every key that is there during the whole call is visited, and a visited key comes
with a value it has at that moment. What it does beyond that - whether it visits keys stored while it runs, in which order - is chosen by the
environment. An enumeration writes nothing that others see, so it is enough to follow one of them beside any number of lookups. -/
namespace GoMetrics
namespace Registry

/-- The enumerating methods. -/
inductive Enum where
  /-- impl/default_registry.go:67-74 -/
  | metrics
  /-- impl/default_registry.go:39-44 -/
  | compasses
  /-- impl/default_registry.go:46-51 -/
  | fastCompasses
  deriving DecidableEq

/-- The function passed to `getMetrics` (41-42, 48-49); `GetMetrics` takes all. -/
def Enum.matches : Enum → Entry → Bool
  | .metrics, _ => true
  | .compasses, e => e.metric.kind == .compass
  | .fastCompasses, e => e.metric.kind == .fast

/-- Where an enumeration is. -/
inductive EnumPC where
  /-- about to call `Range` (56, 69) -/
  | start
  /-- in `Range`; `must` are the keys that were there when it began, `seen` those visited -/
  | visiting (must seen : List GoStr) (result : GoMap GoStr Entry)
  | done (result : GoMap GoStr Entry)
  deriving DecidableEq

/-- One step of an enumeration of registry `rid`: `some i` visits the `i`-th entry, if there is one and it has not been visited; `none` ends `Range`, if it
may end. (impl/default_registry.go:53-74) -/
def enumStep (w : Enum) (rid : Nat) (s : Mem) (choice : Option Nat) : EnumPC → EnumPC
  | .start => .visiting (s.regs rid).metricsMap.keys [] []
  | .visiting must seen result =>
    match choice with
    | none => if must.all (fun k => seen.contains k) then .done result else .visiting must seen result
    | some i =>
      match (s.regs rid).metricsMap[i]? with
      | none => .visiting must seen result
      | some (k, e) =>
        if seen.contains k then .visiting must seen result
        else .visiting must (seen ++ [k]) (if w.matches e then result.set k e else result)
  | .done result => .done result

/-- An event: of the lookups (`inl`), or one step of the enumeration (`inr`). -/
abbrev EnumEv := Ev Call Unit ⊕ Option Nat

/-- Effect of one event. -/
def enumApply (w : Enum) (rid : Nat) (st : Pool Mem PC × EnumPC) : EnumEv → Pool Mem PC × EnumPC
  | .inl e => (conc.apply st.1 e, st.2)
  | .inr c => (st.1, enumStep w rid st.1.shared c st.2)

/-- An enumeration that has not begun beside registries with the given limits and a fresh manager, after the events `es`. -/
def enumerate (limits : List Int) (w : Enum) (rid : Nat) (es : List EnumEv) : Pool Mem PC × EnumPC :=
  es.foldl (enumApply w rid) (Machine.start (initial limits), .start)

/-- The events of the lookups. -/
def lookups (es : List EnumEv) : List (Ev Call Unit) := es.filterMap Sum.getLeft?

end Registry
end GoMetrics
