# Formal model of cavalier_contours in Lean 4

Paths of source files are relative to `/repo`; `cc` is short for `cavalier_contours/src`.

## 1. Approach

The code is generic over `T: Real` (floating point numbers). The model is written once, function by
function, over an operations-only class `Scalar` (`Verif/Model/Scalar.lean`). The class has no laws.

* **Structural properties** (indexes, iteration, views, visiting, slicing, stitching, ownership, absence
  of panics) are proved for **every** `Scalar` instance. They use no law of arithmetic or order, so they
  hold for IEEE floats including NaN and infinities.
* **Geometric properties** are proved for the instance `Scalar ℝ` (`Verif/Spec/RealScalar.lean`, exact real
  arithmetic). Rounding is not modelled.
* **Witnesses** (theorems named `..._witness`) show that the code violates the unrestricted property. They
  use `Scalar Rat` (`Verif/Spec/RatScalar.lean`) where the kernel can evaluate the model on the witness, and
  ℝ elsewhere. A witness is evidence for a defect, never a replacement for a property proof.

Layout:

| directory | content |
|----|----|
| `Verif/Model` | the model: one definition per function of the code, each citing file and lines |
| `Verif/Spec` | small specifications, independent of the algorithms: curves, paths, regions, views, slices, the documented C interface |
| `Verif/Lemmas` | helper lemmas |
| `Verif/Props` | the property theorems, named `Cnn_...`, each followed by an `example` that meets its hypotheses |

How the code is rendered:

* **Panics** (index out of range, `unwrap`/`expect` on nothing, `assert!`, `unreachable!`, `usize`
  underflow) are values of `Except Panic`. "Does not panic" means the result is `Except.ok`.
  `debug_assert!` is not modelled (release semantics). `usize` overflow is not modelled (naturals), but
  underflow is a panic where the code subtracts.
* **Unbounded loops** of the code are either structural recursions, or recursions on a fuel argument that
  the caller sets. Running out of fuel is a separate error value, and the theorems show it is not reached
  (C40, C41, C44, C51), so fuel does not bound what is proved.
* **Visitors and iterators** are state machines with arbitrary state; theorems quantify over all of them.
* **External code** is a parameter `env : Env T` with a contract `Env.Lawful`
  (`Verif/Model/Intersects.lean`): an index built from boxes stores each box once, and a query visits exactly
  the boxes that overlap the query box, each once, in any order; `sort_unstable_by` gives a permutation, sorted
  when the comparison is a total preorder. `Env.plain` is an implementation that meets the contract
  (`Env.plain_lawful`, `Verif/Spec/PlainEnv.lean`), so the contract is not contradictory.
* **Maps and sets** (`BTreeMap`, `BTreeSet`, `HashSet`) are lists with the documented iteration order.
* **The C interface** is a transition system on a heap of typed cells. A call that would read, write or free
  a cell that is not a live object of the right kind has no result (undefined behaviour). Histories are lists
  of calls.
* **serde formats** are token streams of three kinds: delimited text, binary without tuple lengths, binary
  with checked lengths.

## 2. Trusted base

* The Lean 4.33.0 kernel.
* Axioms: every property theorem depends on at most `propext`, `Classical.choice` and `Quot.sound`
  (`#print axioms`). No axioms are added; no `sorry`, `admit`, `native_decide`, `bv_decide`,
  `implemented_by` or `unsafe`. `decide +kernel` is used for witnesses only, and is checked by the kernel.
* The reading of the Rust source into Lean. Every model definition cites file and lines.
* The contract `Env.Lawful` for the crate `static_aabb2d_index` and for `sort_unstable_by`.
* `TotalCmp T` (theorems on slicing and sorting): `total_cmp` is a total order. It holds for ℝ and for IEEE
  `total_cmp`.
* For geometric theorems: real arithmetic in place of IEEE arithmetic, and Mathlib's `sqrt`, `sin`, `cos`,
  `tan`, `arctan`, `arccos` and argument function in place of the `f64` ones.

Real-number caveats, stated in the hypotheses of the theorems: an arc has `|bulge| ≤ 1`, which is what the
library documents and what its functions assume; an arc has distinct end points, since the code divides by
the chord; a bulge below `1e-8` counts as a line.

### Modelled

| code | model |
|----|----|
| `cc/core/traits` (`FuzzyEq`, `FuzzyOrd`, `Real`, `ControlFlow`) | `Model/Scalar`, `Model/Numeric`, `Model/Intersects` |
| `cc/core/math` (`base_math`, `vector2`, `bulge` helpers, line-line, line-circle, circle-circle) | `Model/Math`, `Model/Numeric` |
| `cc/polyline/pline_seg.rs`, `pline_seg_intersect.rs` | `Model/Seg` |
| `cc/polyline/pline.rs`, `traits.rs` | `Model/Pline`, `Model/Iter` |
| `cc/polyline/pline_view.rs` | `Model/View` |
| `cc/polyline/internal/pline_intersects.rs` | `Model/Intersects` |
| `cc/polyline/internal/pline_boolean.rs` | `Model/Boolean` |
| `cc/polyline/internal/pline_offset.rs` | `Model/Offset` |
| `cc/shape_algorithms/mod.rs` | `Model/Shape` |
| option structs and their defaults, calls without options | `Model/FfiOptions` |
| `serde` implementations | `Model/Serde` |
| `cavalier_contours_ffi/src/lib.rs` | `Model/Ffi`, `Model/FfiCall`, `Model/FfiOptions` |

### Not modelled

* Rounding of floating point numbers, `debug_assert!`, `usize` overflow, running out of memory.
* Capacity (`reserve`, `with_capacity`), `Display`/`Debug`, `unwrap_*` conversions between wrapper types,
  `PlineView::detach` (drops a borrow).
* Internals of `static_aabb2d_index` and of `sort_unstable_by` (contract above).
* Address reuse by the allocator in the C interface: addresses are handed out once. Threads: the C interface
  takes raw pointers and has no synchronisation, so only sequential histories are considered.
* serde: fields in another order than written, unknown keys.
* The crates `cavalier_contours_ui` / web demos and benchmarks.

## 3. Properties: what is modelled and how each is proved

`S` = for every scalar type, `R` = over the real numbers.

| id | | how |
|----|----|----|
| C01 | S | the segment iterator unrolled; list induction |
| C02 | S | index functions on naturals; `omega` and mod lemmas |
| C03 | S | two-pointer loop and bulge pass as loops; refinement to the reversed path |
| C04 | R | sum over the segment list, per-segment antisymmetry |
| C05 | R | spec: `½∮(x dy − y dx)` over the curve of each segment, as interval integrals; fundamental theorem of calculus per segment |
| C06 | S/R | per-vertex map; sums over segments |
| C07 | R | case split on the sign of the area |
| C08 | R | spec: length of the curve; angle arithmetic |
| C09 | S | spec `MergedFrom` (runs of near vertexes collapse onto their first); fold invariant. The cyclic part is false in general: two witnesses |
| C10 | S | fold invariant |
| C11 | S/R | loop model; shape facts for every number type; exact statement (same points, every vertex left is needed) on polylines of lines and arcs whose geometry the epsilon resolves. False in general: three witnesses |
| C12 | S | list rotation; the split path is related to the source path |
| C13 | R | running-minimum invariant and the per-segment lemma |
| C14 | R | spec: a continuous angle of the direction from the point to the curve; change of any such angle over a turn is 2π times the result. Per-segment crossing lemma, telescoping |
| C15 | R | fold invariant; chord error |
| C16 | R | prefix sums |
| C17 | R | fold of boxes; per-segment containment and touching |
| C18 | R | list of boxes, containment |
| C19–C23 | S | spec `cycAt` (cyclic access) and the list a view stands for; constructors in the panic monad |
| C24–C27 | R | case analysis and algebra; completeness for crossing lines; witnesses where the code is wrong |
| C28–C31 | R | angle arithmetic, half angle identities, derivative of the spec curve |
| C32 | R | optimality; witness in the tolerance band |
| C33 | R | sweep containment |
| C34–C36 | R | floor, arctan/tan, linear arithmetic |
| C37 | S/R | loops over an arbitrary index meeting the contract; exact set of reports; witness of a lost crossing |
| C38 | S | arbitrary visitors; loop invariants; early exit |
| C39 | S/R | decision logic; regions by winding number for polylines without common points; `C39_clear` from hypotheses on the inputs only |
| C40 | S | loop invariants over slicing, pruning and stitching: result polylines are closed chains of subslices, none used twice |
| C41 | S | visited-set measure; exact condition for the remaining panic; witness |
| C42 | R | map over segments; parallel curves |
| C43 | S/R | slices are exactly the gaps between cut points that pass the tests; meaning of the tests as distance |
| C44 | S | visited-set loop invariants; the order of the candidates is a lawful one (keys), so the sort gives the nearest ahead |
| C45 | S/R | fold partition; index visits |
| C46–C48 | S | transition system; induction over histories; ownership invariant; witnesses of truncation, null buffer and leak |
| C49 | S/R | loop model; over the reals the slices run along the second polyline and cover what the overlaps cover; witnesses of early return and of a wrong last bulge |
| C50 | S | totality in the panic monad; witnesses of panics |
| C51 | S/R | whole of `Shape::parallel_offset`, with the exact panic condition |
| C52–C53 | S | editing calls; iterators as state machines over all call histories |
| C54 | R | the winding number is locally constant off the curve, hence constant on connected sets; transformation laws |
| C55 | R | algebra |
| C56 | S/R | the verdict is exactly a conjunction of requirements; meaning of the point test as distance |
| C57 | S | codecs composed from codecs; witness for counted formats |
| C58 | S/R | equality of calls; induction over the stitching loops for the index option; the bounds of the boxes of the exact index by induction over the segments |
| C59 | R | product rule for the winding numbers of two curves (both are sums over the pieces between the crossings); the pieces of the cutting loop trace the curves between consecutive crossings; the stitching loop uses every kept piece exactly once (the pieces entering and leaving each crossing balance); the totals follow. That the crossings are found is proved from the geometry (`ClearPair`): line-circle and circle-circle solutions are exact and the sweep tests decide them |
| C60 | R | `Spec/OffsetStraight`: moved sides, mitres, arcs, the parallel curve `OffsetPt`. The raw offset polyline is computed corner by corner and equals `rawLoop`; a point that keeps the distance and is at exactly that distance from a side is on a part of the raw offset that belongs to that side (frames along the sides); the distance is then kept along each slice between crossings (open and closed along the slice), and the tests of the code decide each slice (`Spec/SelfCrossing`, `Spec/OffsetTests`, `Lemmas/OffsetLocal`, `OffsetPieces`, `OffsetKeepPieces`); stitching joins slices only at common end points (`OffsetStitch`, `OffsetResult`, `OffsetCurve`); a crossing on the parallel curve is the end of a branch that keeps the distance (`OffsetBranch`). Example: a square with a chamfer whose raw offset crosses itself. |
| C61 | R | At each crossing of the raw offset on the parallel curve the branches that keep the distance balance: by the signs of the derivatives of the distances, either each pass that arrives goes on in the other pass, or both passes stay (`Lemmas/OffsetFlow`). So the kept slices start and end in the same points, counted with multiplicity, and an Euler argument over the rounds of stitching shows that every chain ends where it began, for every order in which candidates are found (`Lemmas/OffsetClosed`). `C61_offset_closed_arcs`: the same for lines and arcs; at a kept crossing each pass has its nearest point of the polyline on the side of the offset, so the distance from the foot of the other pass grows on one side of the crossing and shrinks on the other (`Lemmas/RawFlow`, `Lemmas/AnyClosed`). |
| C62 | R | `Spec/Simple`: a closed polyline that passes every point once. Near a point inside a segment that is passed once the winding number is `w` on the right and `w + 1` on the left (`Lemmas/Sides`, lines and arcs, by turning the plane until the segment leads upwards); `w` is the same along the segment, and the same on both segments at a corner, because a small circle around the corner meets the polyline in just two points (`Lemmas/SimpleArcs`); any point off the polyline is joined by a straight path to the first point of the polyline on it. With nearest points on the two sides, for straight segments: `Lemmas/SimpleLoop`. |
| C63 | R | What the results enclose. A point of the raw offset that keeps the distance and is no crossing is passed by exactly one segment of all results, in the direction of the raw offset (`Lemmas/OffsetEdges`: the slices between cuts are disjoint, and stitching keeps all their segments, each once). So the sum of the winding numbers of all results jumps by one across it (`Lemmas/Jump`). It is constant in the tube of points nearer to the polyline than the offset, and along the way from any other point to its nearest point up to the parallel curve; a point far away fixes the value (`Lemmas/OffsetRegion`). `C63_offset_region_arcs`: the same for lines and arcs. The winding number is the same at all points of the parallel curve of one side, since each of them can be moved to the polyline and along it to the inside of a segment (`Lemmas/SidedArcs`); so the two sides have no point in common. The way to the nearest point is chosen to cross the parallel curve neither at a vertex nor at a crossing: the points for which it does are on finitely many lines (`Lemmas/AnyRegion`, `Lemmas/OffsetRegionArcs`). |
| C64 | R | `Spec/Measure`: the region inside a polyline and its Lebesgue measure. The integral of what a line adds to the winding number, taken from the left of a vertical line far to the left, is the area of a trapezoid (`Lemmas/AreaLines`, Fubini); an arc differs from its chord by the indicator of the circular cap, after a turn of the plane that makes the chord vertical (`Lemmas/AreaArcs`). Summed over a closed list of segments this is the formula of `area`. The statements about regions, boolean results and offset results follow from C62, C59 and C63. |
| C65 | R | `Spec/OffsetArcs`: parallel segments, the kinds of corners, and the raw offset made of them (`rawWith`), written without the functions of the model. `ClearOffset` says that no corner is within a tolerance of a change of its kind, that no arc is collapsed and that what is left of every parallel segment runs forward. `Lemmas/OffsetArcsHits` and `OffsetArcsJoin` prove what each join function appends at each kind of corner; `OffsetArcsRun` follows the vertexes through all joins, the closing of the loop and the correction of the first vertex; `OffsetArcsNear` gives the points and their distance. Examples: a half disc, inwards (cut corners) and outwards (rounded corners). Not covered: collapsed arcs. |
| C66 | R | As C60, but for lines and arcs and against any raw offset. `Spec/OffsetAny`: the tests at a point do not confuse the ends of the arcs of the input (`Readable`), and along the raw offset the distance is given up and regained only at self crossings (`ChangesAtCrossings`; a hypothesis of the first theorems, proved for straight polylines in C60). `Lemmas/OffsetSteady` shows that the tests then decide every slice and that the results consist of the slices that keep the distance. With C65 the raw offset is spelled out and every point of a result has exactly the offset as distance. `Spec/OffsetCorners` defines the parallel curve without the raw offset (`ParallelPt`) and corners that are in accordance with the distances (`CleanCorners`); `Lemmas/SegFrame`, `FootLocal`, `CornerFrame` and `ParallelCurve` identify the two. `C66_parallel_exact` derives `ChangesAtCrossings` from the geometry: no point on the parallel curves of both sides (`OneSidedCurve`), clear ends at cuts (`FreeCuts`), crossings at an angle (`CrossAtAngle`). `Lemmas/FootAll` shows that a motion keeps the distance from the whole polyline if it keeps it from the segments and corners it is beside; `ArcParts`, `ParGain` and `RawKeeps` apply this along the parts of the raw offset. Examples: a rectangle with a half disc on top (`Lemmas/House`, `HouseOffset`, `HouseCorners`, `HouseSides`) and the chamfered square of C60. |
| C67 | S | `Spec/StitchOrder`: kinds of slices, rank of a slice after another, rounds of stitching; induction over the inner and the outer loop (`Lemmas/StitchRounds`) |
| C68 | R | As C66, for open polylines. `Spec/OffsetOpen`: the cuts of the raw offset (`OpenCuts`: self crossings, common points with the raw offset to the other side, points of the circles around the two ends), what the segment and circle tests report (`FindsPath`, `FindsPairs`, `FindsCircle`), the tests of the slices (`OpenTests`) and `ChangesAtCuts`. `Lemmas/OpenFound` proves which points `slices_from_dual_raw_offsets` cuts at, `OpenPieces` and `OpenRun` which pieces result from sorted cuts on an open polyline, `OpenResult` which pieces are kept and that stitching only joins pieces at common ends. `Spec/OffsetOpenCurve` states the exact parallel curve without the raw offset (`ParallelPathPt`: beside a segment or around an inner vertex, with nothing nearer); `Lemmas/OpenCurve` proves that with clean corners it is what is left of the raw offset (`C68_parallel_curve`). `C68_parallel_exact` needs no `ChangesAtCuts`: `Spec/OffsetOpenCross` says what crosses the raw offset at a cut (`CutKind`: another pass, a pass of the other raw offset, or the circle around an end, one of them only and at an angle), `Lemmas/OpenParts` names the parts of the raw offset, `OpenFoot` proves from the nearest points of the polyline where the distance is kept near a point, and `OpenKeeps` that it changes at cuts only. Example `Lemmas/HookOffset`, `HookCross`: a hook whose raw offset is cut twice by the circle around its end. `C68_parallel_straight`: for straight segments the clean corners are proved (`Lemmas/StraightClean`), not assumed. |
| C69 | R | `Spec/OffsetOpenRaw`: as C65 (`rawPath`, `ClearPath`), without a corner at the ends. The corner lemmas of C65 are stated for two neighbouring segments (`SegOk`) and used for both. Induction over the joins (`Lemmas/OpenRaw`). Examples: the hook to both sides, and a line with a half circle. |
| C70 | R | As C68, for closed polylines with `handle_self_intersects`. `Spec/OffsetSelf`: the cuts of the raw offset (`SelfCuts`: points that it passes twice, common points with the raw offset to the other side), `SelfTests`, `SelfChanges`. `Lemmas/LoopFound` proves which points the code cuts at, `LoopRun` which pieces of a closed polyline result from the sorted cuts (also those that run over the start, and those with both ends on one segment), `LoopResult` which pieces are kept and what is left. Excluded: exactly one cut. There the code makes no slice at all, so that the loop is lost; this needs a raw offset that touches the other one in a single point. `Lemmas/StraightCorner` proves that straight polylines with clear corners are among those of C65, so that `C70_offset_parallel` applies to them. `C70_parallel_exact` does not assume `SelfChanges`: `Spec/OffsetSelfCross` says what crosses the raw offset at a cut (`LoopCutKind`: one other pass of itself, or one pass of the raw offset of the other side, at an angle), and `Lemmas/SelfFoot`, `SelfKeeps` derive that the distance is given up and regained only at the cuts; the results are then exactly the parallel curve of `Spec/OffsetCorners`. `Lemmas/StraightClean` proves that straight polylines with clear corners have clean corners, so that `C70_parallel_straight` assumes nothing of the distances. Examples: a coil that winds twice and crosses itself, cut at four places, for all theorems; a square, for which both settings of the option agree. `C70_closed` (`Lemmas/LoopClosed`): the kept pieces lead on from each other, since as many kept pieces end at a cut as start there (only one side of the raw offset keeps the distance); so stitching closes every result. For simple loops this is proved, not assumed. `C70_region`, `C70_empty`, `C70_area`: as C63 and C64 for simple loops; `Lemmas/LoopPass` shows that each point that is no cut is passed once, `Lemmas/RegionValues` is shared with C63. `Props/OffsetRoom` proves that for simple loops the option changes neither the points nor the winding numbers nor the area of the results (`C70_option_same`); its example is a room whose raw offset crosses itself at both ends of a narrow passage (`Lemmas/Room`, `RoomOffset`), which also meets the hypotheses of C61, C63, C64 and C66 with crossings. |
| C71 | S/R | `Spec/Same`: runs of overlaps that close up (`ClosesUp`, `OneLoop`), the same segments in any order and directions (`SameCurve`). For all scalars: `Overlapping` is reported exactly if the overlaps found form one run that closes up (from C49). Over the reals: `Lemmas/SameSeg` proves that a line or an arc overlaps with itself from end to end, `SameRun` that the overlaps of two polylines of the same segments are one per segment and close up. The regions agree by parity of the winding numbers and C62. Partial: the converse, that inputs reported as overlapping have the same region, is false (`C71_lobe_witness`). |
| C72 | R | `Spec/ShapeOffset`: the points kept (`KeepsOthers`), the cuts of the offset loops (`ShapeCuts`), found exactly (`ShapeFinds`), tests clear of the tolerances (`ShapeTests`), distance given up and regained only at cuts, with as many ways kept that arrive as that leave (`ShapeChanges`). C51 gives the loops, slices and stitching; `ShapeLoop`, `ShapeFound` show that the slices are the stretches between cuts, `ShapeRun`, `ShapeChains` that the stitching closes every chain (a balanced directed graph has no dead end), `ShapeResult` counts the points. `Bay`, `Islet`, `IsletWater` are the example: a square island in a triangular bay. `Spec/ShapeCross`: offset loops that cross at angles, two at a time; `Lemmas/ShapeCross`, `Lemmas/ShapeCrossKeeps` (`BesideAll.changes`) derive `ShapeChanges` from it when the single offsets are parallel curves (`Alongside`): at a crossing each loop enters the other one's near side on exactly one side. `C72_shape_curve` uses this and states the points of the result by distance and winding number only. `Spec/ShapeSingle` (`ClearlyOffset`): the conditions of C66 and C74 on one polyline; `C72_shape_exact` derives from them that the single offsets are parallel curves and that none is skipped, and C75 that they do not touch themselves, so that nothing is assumed about the offset loops except how they cross. `C72_from_plines` starts from a list of polylines and `from_plines`. |
| C73 | R | `Spec/SimplifyArcs` (the relation `Shortened` of C11) and the executed `area`, `path_length`, `winding_number`. `Lemmas/ShortenedSums`: any sum over segments that adds up at division points (`SplitSum`) is kept by `Shortened`; length, area and winding are such sums. For `rotate_start`, C12 gives the path, rotated or with one segment divided. |
| C74 | R | `Spec/ShapeRegion`: the parallel curve of one polyline, with its direction (`Alongside`), and the sum of the winding numbers of a shape. `Lemmas/ShapeRegion` (`FollowsAll.region`): curves that consist of the points at the distance from the nearest of several polylines on one side, and at which the sum of the winding numbers changes by one across, enclose the right region; the sum is constant nearer to the polylines, and going away from the nearest polyline it changes once. `Lemmas/ShapeFollows` derives this from C72 (points of the result; each point is passed by one segment in the direction of the offset loop), `Lemmas/ResultParts` shows with C66 that single offsets are such curves. Non-vacuity: `Lemmas/IsletRegion` shows all hypotheses for a square island in a triangular bay. `C74_region_cross`, `C74_area_cross` replace `ShapeChanges` by `ShapeCross`. `Lemmas/OffsetTurn` (`inward_turn`): a curve beside `p` on its inside that turned the other way would have all of `p` on its inside, but then its rightmost point is outside `p`. |
| C75 | R | `SimpleLoop` of `Spec/Simple` for the results. `Lemmas/ResultSimple`: the segments of the results are parts of the raw offset (C74), and a point of the raw offset that keeps the distance and is no crossing is passed by just one of them (C63); two parts that met at a crossing would both go on keeping the distance there, but at a crossing at an angle one of the two passes goes on into the near side of the other (`one_onward`, from the feet of C66). `Lemmas/ShapeSimple` does the same for shapes: two parts of one offset loop have no common points as the loop has none with itself, and at a crossing of two offset loops only one of them goes on keeping the distance from all polylines. |
| C76 | R | `Spec/ShapeTwice`: a sound shape (`SoundShape`: what C75 proves of every result) and an offset clear of the tolerances (`ClearShape`). By C72 and C75 each call gives exactly the points at the offset distance on its side, and a sound shape again. `Lemmas/OffsetTwice`: from this alone, the points at the distance `d₁ + d₂` from the polylines are those at the distance `d₂` from the points at the distance `d₁` (a shortest connection passes the first offset at the right place; a connection that changes sides meets it). `Lemmas/Wedge` and `wedge_twice`: triangles of every size and every pair of distances meet the conditions. |
| C77 | R | From the exact description of each call (C72, `ExactAt`): a shortest connection from a point of the farther offset to the shape passes the nearer offset; a connection of offsets on different sides passes the shape. The comparison of areas integrates the winding numbers (C64). Example: two offsets of a triangle of any size (`wedge_steps`). |
| C78 | R | From the exact description of both calls (`ExactAt`): a connection from a point on the near side of the shape to the first offset passes the shape, so the point keeps the distance from the first offset. Areas as in C77. `Lemmas/Frame`, `box6_back`: a square, offset to the inside and back, becomes the square with round corners. |
| C79 | R | Each call is exact (`single_exact`, from the theorems about one offset, C67 to C75). The results of the first call lie outside each other (`ExactAt.outside`: shortly beyond a point of one result the winding numbers of all of them vanish), so a connection from the inside of one to another crosses the first; hence the second offsets together are the exact offset of all the results (`ExactAt.together`), and `ExactAt.twice` (C76) applies. `wedge_repeat`: triangles of any size. |
| C80 | R | Induction on the list of distances (`Spec/Passes`: `makePasses`, `shapePasses`, the loops of a caller). Invariant: the polylines so far are the exact offset of the first one by the sum so far (`Followed`, `ExactAt.comp`), closed, simple and of its orientation, so that the next call is exact again (`single_exact`, `ExactAt.together`; for shapes `sound_exact`). `wedge_passes`, `wedge_step`, `wedge_shape_passes`: triangles of any size and any number of passes. |
| C81 | R | From the exact description (`ExactAt.empty`): from a point that is far enough away the connection to the nearest point of the polylines passes the offset (`ExactAt.between`). The bound: the winding number vanishes outside a square around the polyline (`inside_bounded`: along a horizontal or vertical line that misses the polyline, to the far right). `wedge_room`, `wedge_end`, `wedge_shape_room`: triangles of any size. |
| C82 | R | The exact description of an offset to either side (`single_exact_side`, from C63, C74, C75; `sound_exact` for shapes) only refers to points and winding numbers (`ExactAt.transfer`); areas as integrals of the winding numbers. `C82_invert`: `invert_direction` as an instance (its points by `flip_trace`, its winding numbers by C54). `wedge_same`, `wedge_same_shape`: triangles of any size with different indexes and tolerances; `wedge_gib` (`Lemmas/Gib`): the same triangles in the opposite direction. |
| C83 | R | `from_one`: the shape of one simple loop is sound (C45, C62), in both directions. The exact descriptions of both offsets (`single_exact_side`, `sound_exact`) then coincide (`ExactAt.same`); areas as integrals of the winding numbers. `wedge_of_one`, `gib_of_one`: triangles of any size in both directions. |

What is missing from each property with status `partial` is in the note of its `MANIFEST.json` entry.

## 4. Where the code disagrees with the property

Proved, with the theorem that shows it:

| finding | theorem |
|----|----|
| `remove_repeat_pos` on a closed polyline can empty it, and drift lets a repeated position survive | `C09_empty_witness`, `C09_drift_witness` |
| `remove_redundant` can lose the end of an open polyline | `C11_lost_end_witness` |
| `remove_redundant` can panic on a closed polyline | `C11_panic_witness` |
| `remove_redundant` on a closed polyline can delete a corner at the start and change the curve: after joining the first arc with the next it still uses the old bulge for it | `C11_wrong_circle_witness` |
| `arcs_to_approx_lines` of a closed single vertex polyline is empty | `C15_single_closed_witness` |
| `find_point_at_path_length` panics on an empty polyline | `C16_empty_witness`, `C50_find_point_witness` |
| a slice whose start and end are the same segment end is the whole loop | `C21_segment_end_witness` |
| short crossing lines are treated as collinear, with parameters of two different points | `C24_short_crossing_witness` |
| a reported tangent point of nested circles can be far off both circles | `C26_tangent_witness` |
| touching arcs of one circle: reported point off both arcs; tiny arcs: reported point off the arc | `C27_wrong_touch_witness`, `C27_small_arc_witness` |
| `seg_closest_point` can return a point off the arc in the tolerance band of the sweep test | `C32_off_segment_witness` |
| a full turn is not handled as documented by the angle test | `C34_full_turn_witness` |
| a crossing within eps of a corner can be lost by `find_intersects` | `C37_lost_crossing_witness` |
| polylines that touch themselves at one point and have only one of their lobes in common are taken for the same curve: the union loses the other lobe of the first, the difference is empty | `C71_lobe_witness` |
| the boolean operation panics when overlaps lead back to an earlier point | `C41_panic_witness`, `C49_early_return_witness` |
| an overlapping slice whose last segment is an arc covered by several overlaps gets the bulge of the last part over the whole chord, so it leaves the polyline | `C49_end_bulge_witness` |
| C interface: positions truncated to 32 bits; null buffer with count 0 is undefined behaviour in `set_vertex_data`; freeing a list leaks its polylines, against the documentation | `C46_truncation_witness`, `C46_null_buffer_witness`, `C48_leak_witness` |
| `last()` of an empty polyline underflows (debug panic) | `C50_last_witness` |
| `quadratic_solutions` divides by zero exactly when `b = 0` and `c = 0` | `C55_quadratic_divisor` |
| view data along the missing closing segment of an open polyline is accepted as valid | `C56_open_wrap_witness` |
| `Vector2` announces a tuple of 3 and writes 2, so vectors and view data cannot be read back in counted formats | `C57_counted_witness` |

Seen while modelling, and visible in the statements or in comments of the model:

* Join tolerance in offset stitching is doubled: the index boxes and the query box are both grown by
  `slice_join_eps` (stated in C44).
* When the raw offset polyline has no cut point, only its vertex 0 is tested for distance (C43).
* `Shape::parallel_offset` panics exactly when an offset loop has fewer than two vertexes (C51), treats open
  offset loops as closed, drops the last vertex of a stitched chain without testing that it repeats the
  first, and does not stop a chain when it returns to its start.
* `Shape::from_plines` puts open polylines (area 0) among the clockwise ones (C45).
* `point_valid_for_offset` with `|offset| < offset_tol` queries with an inverted box, so nothing is tested.
* `sort_and_join_overlapping_intersects`: the end bulge of a loop slice is taken from
  `vertex_count - 1` of the second polyline.
* Local self intersects of a two vertex closed polyline are found by comparing bulges only.
* Inverting an open polyline twice changes the (unused) bulge of its last vertex (stated in C03).
* `seg_length` treats a segment as degenerate by comparing positions with the default epsilon (guards in
  C04 and C08).

## 5. Tests of the theorems

`seeded/LOG.jsonl` lists wrong programs: one realistic fault each, put into a scratch copy of the model and
rebuilt, with the theorems that failed. Where a fault survived, the entry names the theorems that were
tightened or added.
Theorems appear there under the name they had at the time: `C24_crossing_complete`, `C26_tangent`, `C32_arc`, `C43_vertexes_clear`
and `C43_distance` have since got the suffix `_partial`.
