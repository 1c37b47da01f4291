import Verif.Loc.Spec
/-!
# Spans and the map from locations to things

Models spade-common/src/location_info.rs and spade-common/src/loc_map.rs.  `Span::new` and
`Span::merge` are those of the spade_codespan crate, which is not part of the repository: `new` asserts that
the ends are in order, `merge` takes the smaller start and the larger end.  Byte indices are natural
numbers instead of `u32`.
-/
namespace Spade.Loc

/-- `Span::new`, which panics if the ends are not in order. -/
def Span.new (start stop : Nat) : Option Span :=
  if h : start ≤ stop then some ⟨start, stop, h⟩ else none

/-- `Span::merge`. -/
def Span.merge (a b : Span) : Span where
  start := min a.start b.start
  stop := max a.stop b.stop
  le := by have := a.le; have := b.le; omega

/-- `between_locs` (location_info.rs:93-96), which panics for locations of different files. -/
def betweenLocs {α β γ : Type} (x : γ) (a : Located α) (b : Located β) : Option (Located γ) :=
  if a.file = b.file then some ⟨x, a.span.merge b.span, b.file⟩ else none

/-- `contains_start` (location_info.rs:228-232). -/
def containsStart {α β : Type} (a : Located α) (b : Located β) : Bool :=
  b.file == a.file && decide (b.span.start ≥ a.span.start) && decide (b.span.start < a.span.stop)

/-- `ends_before` (location_info.rs:235-237). -/
def endsBefore {α β : Type} (a : Located α) (b : Located β) : Bool :=
  b.file == a.file && decide (a.span.stop < b.span.start)

/-- `shrink_left` (location_info.rs:260-273), with the length of the string; the new span panics if
the string is longer than the span. -/
def shrinkLeft {α : Type} (a : Located α) (len : Nat) : Option (Located Unit) :=
  if a.span.start = a.span.stop then some ⟨(), a.span, a.file⟩
  else (Span.new (a.span.start + len) a.span.stop).map (⟨(), ·, a.file⟩)

/-- `shrink_right` (location_info.rs:276-290).  The end is a `u32`, so that it must not become
negative either. -/
def shrinkRight {α : Type} (a : Located α) (len : Nat) : Option (Located Unit) :=
  if a.span.start = a.span.stop then some ⟨(), a.span, a.file⟩
  else if len ≤ a.span.stop then (Span.new a.span.start (a.span.stop - len)).map (⟨(), ·, a.file⟩)
  else none

/-- A `BTreeMap` is a list of entries in increasing order of their keys. -/
abbrev Map (α : Type) := List (Nat × α)

/-- `entry(k).or_insert(Default::default())` followed by an update. -/
def Map.update {α : Type} (f : Option α → α) (k : Nat) : Map α → Map α
  | [] => [(k, f none)]
  | (k', v) :: m =>
    if k < k' then (k, f none) :: (k', v) :: m
    else if k = k' then (k', f (some v)) :: m
    else (k', v) :: Map.update f k m

/-- `LocMap` (loc_map.rs:9-12).  The outer `HashMap` is a map as well: the order of the files does
not matter, as only one is looked at. -/
abbrev LocMap (α : Type) := Map (Map (Map (List α)))

/-- `insert` (loc_map.rs:21-30). -/
def insert {α : Type} (m : LocMap α) (x : Located α) : LocMap α :=
  Map.update (fun starts =>
    Map.update (fun ends =>
      Map.update (fun things => things.getD [] ++ [x.inner]) x.span.stop (ends.getD []))
      x.span.start (starts.getD [])) x.file m

/-- The file of a map, if any (`HashMap::get`). -/
def Map.find {α : Type} (k : Nat) : Map α → Option α
  | [] => none
  | (k', v) :: m => if k' = k then some v else Map.find k m

/-- `around` (loc_map.rs:32-53): the things, with their spans. -/
def around {α : Type} (m : LocMap α) (file : Nat) (s : Span) : List (α × Nat × Nat) :=
  match Map.find file m with
  | none => []
  | some starts =>
    ((starts.filter (fun e => e.1 ≤ s.start)).flatMap (fun e =>
      (e.2.filter (fun e' => s.stop ≤ e'.1)).flatMap (fun e' =>
        e'.2.map (fun thing => (thing, e.1, e'.1))))).reverse

end Spade.Loc
