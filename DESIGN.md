# Formal model of `measured` — design

Source: `/repo` (conradludgate/measured), read as text and never built or run. The model and the proofs are in Lean
4.33.0 with single Mathlib modules; `cd lean && lake build` checks everything.

## Layout

* `lean/Verif/Model/*` – executable models of the Rust code; each definition cites file and lines in `/repo`.
* `lean/Verif/Spec/*` – specifications that do not use the model's helpers: regular expressions, a reader of the
  Prometheus text format, a reader of the protobuf wire format and of `MetricFamily`, abstract maps, counting.
* `lean/Verif/Proof/*` – helper lemmas.
* `lean/Verif/Props/*` – the property theorems `Cnn_…`, each with a concrete instance (`example`) beside it.
* `lean/Verif/Props/Conform.lean` – the tests and doc tests of the repository, run on the model (tests of the model, not
  proofs).
* `MANIFEST.json` – property → status → theorems. `seeded/LOG.jsonl` – wrong programs tried against the theorems.

Suffixes: `_refuted` proves that the code violates the property (with a witness); `_partial` proves the property
on the part of its domain where it holds or could be proved. The note in `MANIFEST.json` says what is missing.
Where a `_refuted` and a `_partial` theorem cover the domain together, the property is false as stated and the pair
says exactly when it holds.

## Trusted base

* The Lean kernel, and the parts of Lean that elaborate statements.
* Axioms: every property theorem depends on no axioms other than `propext`, `Classical.choice` and `Quot.sound`
  (checked with `#print axioms` over all theorems of the manifest). The development declares no axiom, and has no
  `sorry`, `admit`, `native_decide` or `bv_decide`. `decide +kernel` is used for closed examples and for a few closed
  arithmetic facts; it is evaluated by the kernel.
* The faithfulness of the model to the Rust text, definition by definition, as cited.
* The readers in `Spec/`, as renderings of the public formats.
* Assumptions about external crates, listed next.

### Assumptions about code outside the repository

* `usize` has 64 bits. `Vec` lengths are below `2^63`.
* `ryu` is a parameter of the encoders. Theorems that need something of it take it as the hypothesis `FloatText` (output
  is ASCII of a shape that is not an integer, and reads back as the number) or `FloatAscii`. Its documented contract
  (shortest decimal that is read back, of these the nearest) is modelled by a search in `Model/Ryu`; C81 proves that
  `FloatText` holds of it for every correctly rounding reader. That the tables of `ryu` compute this is assumed.
  `itoa` is modelled (decimal digits).
* `f64` arithmetic is IEEE 754 binary64, round to nearest, ties to even; NaN results have one canonical pattern.
  The model computes on bit patterns; that its additions, subtractions, products, quotients, conversions and comparisons are those
  of IEEE 754 is proved in `Proof/Rounding` and `Proof/Quarters` against the definition of rounding in `Spec/Rounding`.
  `powi` is the repeated squaring loop of compiler-rt. `Duration::as_secs_f64` is
  `(secs as f64) + (nanos as f64) / 1e9`, as in the standard library.
* `hashbrown::HashTable` is a list of entries with `find`, `entry`, removal; its iteration order is arbitrary.
  Hash functions are arbitrary functions, constant ones included.
* `lasso::ThreadedRodeo` is an append-only table with a capacity, `RodeoReader`, `IndexSet`, `phf::OrderedSet` are
  lists without duplicates with index lookup. Calls on a `ThreadedRodeo` from several threads take effect one at a
  time (`C66`).
* `tokio::sync::Mutex` is a lock: any waiting request may get it when it is free, and a request that is dropped while it waits
  gives up its place.
* `parking_lot::RwLock` is a read-write lock that may refuse readers while a writer waits; it grants a waiting
  thread eventually when nobody holds the lock (used by `C25_finish` and `C65` only).
* `std::sync::OnceLock` is the protocol described in `Model/DenseConc.lean`.
* `procfs`, `sysconf` and `tokio::runtime::RuntimeMetrics` are arbitrary answers.
* `axum`: `nest` puts the prefix before the paths; the search among the routes is any function with the laws of `Finds`
  (`Spec/Routes.lean`); percent-decoding is any function; `GET` handlers get `HEAD`, no handler is 405, no route is 404 and
  has no `MatchedPath` (`C83`).
* `heck` 0.5.0 is an arbitrary function in C59 and C61; C82 models its `transform` (from its published source, which is
  not in the repository) for ASCII. `syn`, `quote`: the generated code is modelled, not the parsing of Rust.
  Identifiers made by `quote!` and `format_ident!` are in the scope of the call site, like those of the struct (`C92`).

### Memory model

`C20` and `C21` use a view based model of one location: the location is its modification order; a thread has a view,
the number of modifications it knows of; a load returns any value not older than the view; a plain store takes its
place anywhere after the view, directly before another plain store or at the end; a read-modify-write acts on the last
value. `sync` transfers the view along any happens-before edge. That is weaker than the C11 `Relaxed` ordering
requires, so that theorems about it hold for all orderings used in the code.
`C22` (histogram): cells hold the last value, loads inside `inc_by` return anything, the lock gives happens-before. `C97` proves
that this is no restriction: a histogram in view based memory, with a modification order and views for each cell, refines it.
`C23`–`C25`, `C67` (sparse vectors): the table is protected by the shard lock; an update takes effect at any time while
its guard is kept, in any order and whatever else the thread does; values of metrics that are read may be those of any
time since the lock was taken; locks are taken and released in one order. `C99` does it with
views: the same guarantees for updates and removal, and for collections what happens-before gives. `C47` (dense vectors): `OnceLock` with stale loads and knowledge per cell.
Interleavings are arbitrary, the number of threads is not bounded.

## Conventions of the model

* Integers are `Nat`/`Int` with explicit wrap-around or explicit overflow failure. A build `Mode` (`debug`/`release`)
  selects overflow panics versus wrapping and whether `debug_assert!` is active; theorems quantify over it.
* A Rust `panic` is the value `Out.panic`, an `io::Error` is `Out.err`. A `&mut self` method is
  `σ → Out α × σ`: it leaves a state also when it fails.
* `&str`/`String` are byte lists. A writer is any instance of `Write`: it may fail at any call after accepting any part
  of the bytes, and may recover later.
* An encoder is a record of three calls (`help`, `type`, `sample`); a label group is the list of pairs it visits.

## What is modelled

| source | model | remarks |
|--------|-------|---------|
| `core/src/label/name.rs` | `Model/Name` | all of `from_str`/`try_from_str`; `as_str` is the identity |
| `core/src/label/value.rs`, `label/impls.rs` | `Model/Label`, `Model/Encoder` | `LabelVisitor` values as `LVal`; `StaticLabelSet`, `IndexSet`, `RodeoReader`, `OrderedSet`, `ThreadedRodeo`, `Arc`; `LabelTestVisitor` in `Model/TestVisitor`; vectors that share an interner in `Model/SharedInterners` |
| `core/src/label/group.rs` | `Model/LabelGroup`, `Model/Encoder`, `Model/Visit` | `LabelGroupSet`, `ComposedGroup`, `NoLabels`; references are erased |
| `derive/src/value/*` | `Model/Label`, `Model/Derive`, `Model/DeriveInput`, `Model/Heck` | attributes, labels of variants, generated `encode`/`decode`/`cardinality`; the cases of `heck` for ASCII |
| `derive/src/label_group/*` | `Model/LabelGroup`, `Model/DeriveNames`, `Model/Visit`, `Model/Derive`, `Model/DeriveInput`, `Model/EncodeConc` | attributes, generated sets and constructors: sorting of fields, mixed radix ids, tuples of dynamic ids; several threads encoding and decoding at once |
| `derive/src/metric_group/*` | `Model/Group`, `Model/Derive`, `Model/DeriveInput`, `Model/Registry`, `Proof/Snake` | attributes, generated `collect_group_into` (alone and while other threads use the metrics), joined and trimmed doc comments, the expressions of the generated `new` |
| `core/src/metric.rs` | `Model/MetricVec`, `Model/Group`, `Model/DenseConc`, `Model/SparseConc`, `Model/SparseWeak`, `Model/LabelledVec`, `Model/ConcScrape` | `MetricVec`, `VecInner`, `LabelId`, guards (sequential and concurrent), `collect_family_into` |
| `core/src/metric/sparse.rs` | `Model/MetricVec`, `Model/SparseConc`, `Model/SparseWeak` | shards, `get_metric`, `get_metric_mut`, `remove_metric` |
| `core/src/metric/name.rs` | `Model/Name` | names, suffixes, namespaces, `encode_text`, `encode_len`, validation |
| `core/src/metric/group.rs` | `Model/Group` | `MetricGroup` for references, `Option`, pairs, namespaces |
| `core/src/metric/counter.rs`, `gauge.rs` | `Model/Atomic`, `Model/Api` | shared and exclusive updates, every method |
| `core/src/metric/histogram.rs` | `Model/Histogram`, `Model/HistConc`, `Model/HistWeak`, `Model/HistVec`, `Model/HistDense`, `Model/Timer` | thresholds, `observe`, sampling (also inside a vector in use), timers |
| `core/src/text.rs` | `Model/Text`, `Model/Flush`, `Model/BufferedText` | every function; `BufferedTextEncoder` is the instance with a growing buffer (C96) |
| `prometheus-proto/src/encoding.rs`, `lib.rs` | `Model/Varint`, `Model/Proto`, `Model/Flush` | every function |
| `process/src/lib.rs` | `Model/Process` | linux branch |
| `tokio/src/lib.rs` | `Model/Tokio`, `Model/TokioConc` | all families; the `RwLock` around the runtimes with poisoning |
| `examples/axum-server/src` | `Model/Server`, `Model/Routes` | the routes and their handlers; the middleware as steps of a request on the three vectors with one interner; a request that is given up drops its timer; the handler of `/metrics` by its passes and its text; axum's search among the routes and the clock by contract (a request has a path, a method and, if answered, a status from 100 to 999; a duration is any number of nanoseconds that fits) |
| not modelled | | tests, benches, `Debug`/`Display` derives, allocation failure |

## Properties

* **C01** (proved) Derived enum labels are numbered one-to-one. Proof: generated match arms over a list of variants; list induction. Derived enum labels: encode/decode inverse, in range, decode panics outside.
  Theorems: `C01_derived_enum`.
* **C02** (proved) A derived label group round-trips through its id. Proof: mixed radix encode/decode loops and interners; induction over the sorted field list, for any lawful sets and interners. Any list of fixed/dynamic fields, any lawful interners, both build modes, also after growth of interners.
  Theorems: `C02_derived_round_trip`.
* **C03** (proved) Derived dense ids are a bijection with 0..cardinality(). Proof: the same loops with fixed fields only; arithmetic of mixed radix numbers. C03_dense_ids is for fields of any kind, the rest for groups with only fixed fields.
  Theorems: `C03_dense_bijection`, `C03_dense_ids`.
* **C04** (proved) Encoding fails exactly for values outside the sets, and a failing fixed field leaves interners untouched. Proof: characterises `None` and the states of interners through the `?` sequence. C04_encode_none: exact characterisation of None, and no interning when a fixed value is unknown; C04_overflow and C04_untouched for any number of combinations.
  Theorems: `C04_encode_none`, `C04_overflow`, `C04_untouched`.
* **C05** (partial) Label ids are one-to-one for every derived group. Proof: the same encode in wrapping and panicking arithmetic; witness with `2^64` combinations. Refuted in general: with more than usize::MAX combinations release builds give two groups the same id and debug builds panic (C05_ids_collide_refuted). Injectivity proved when the product fits or in debug builds (C05_ids_injective_partial). Exact for release builds: two groups collide if and only if there are more than 2^64 combinations (C05_collide_iff). Where encoding panics, the lookup in a vector panics and changes nothing (C05_lookup_panics); in a sparse vector a lookup ends as its encoding does (C05_lookup_follows). Missing: release builds with an overflowing product, where the claim is false.
  Theorems: `C05_ids_collide_refuted`, `C05_ids_injective_partial`, `C05_collide_iff`, `C05_lookup_panics`, `C05_lookup_follows`.
* **C06** (proved) Dynamic label ids are stable and injective. Proof: invariant (no duplicates, growing table) over all sequences of `encode`. ThreadedRodeo modelled as an append-only intern table with a capacity.
  Theorems: `C06_intern_stable`.
* **C07** (proved) Composed label group sets stay bijective. Proof: lawfulness (`GroupSetLaws`) of the composition from lawfulness of the parts. Lawfulness is preserved by composition, hence for all nestings.
  Theorems: `C07_composed`, `C07_composed_dense`.
* **C08** (proved) Fixed label sets (IndexSet, RodeoReader, phf::OrderedSet, StaticLabelSet) are lawful. Proof: lawfulness (`FixedSetLaws`) of each set. StaticLabelSet, IndexSet, RodeoReader, OrderedSet, Arc.
  Theorems: `C08_fixed_sets`.
* **C09** (proved) A labelled metric behaves as a map from label groups to metric states. Proof: refinement: every program of operations gives the same answers as the abstract map `VecMap`, invariant on ids, hashes, shards and cells. Refinement of an abstract map by every program of operations.
  Theorems: `C09_refines_map`.
* **C10** (proved) Updating one label never affects another. Proof: corollary of the refinement, for two programs that differ in updates of another label. All hash functions, including constant ones.
  Theorems: `C10_labels_independent`.
* **C11** (proved) Dense and sparse storage are observationally equivalent. Proof: both storages refine the same abstract map. The program must not contain remove_metric or init_all_dense, whose documented behaviour differs between the storages.
  Theorems: `C11_dense_sparse_equivalent`.
* **C12** (proved) remove_metric returns the whole accumulated state and forgets the label. Proof: refinement, specialised to removal. 
  Theorems: `C12_remove`.
* **C13** (proved) get_cardinality reports the exact number of live labels and a valid bound. Proof: refinement, counting live labels. 
  Theorems: `C13_cardinality`.
* **C14** (proved) init_all_dense exposes every combination and preserves existing values. Proof: refinement, `init_all_dense`. 
  Theorems: `C14_init_all_dense`.
* **C15** (proved) Collection emits each live label exactly once with its current value. Proof: collection as a list of calls, permutation of the live labels without duplicates. 
  Theorems: `C15_collect_exactly_once`.
* **C16** (proved) Dense collection order is lexicographic in declared field order. Proof: mixed radix order is lexicographic order. C16_dense_order: order of ids; C16_dense_collection_order: order of the collected samples.
  Theorems: `C16_dense_order`, `C16_dense_collection_order`.
* **C17** (proved) Storage choice follows the documented cardinality rule. Proof: case analysis of the constructor on the cardinality. 
  Theorems: `C17_storage_choice`.
* **C18** (proved) Label ids are always usable. Proof: invariant: ids issued stay valid when interners grow. 
  Theorems: `C18_ids_usable`.
* **C19** (proved) Shard selection is always in range and depends only on the hash. Proof: bit arithmetic on 64 bit words for all hashes and shard amounts. Parallelism up to 2^55; default_shard_amount overflows from 2^62 on.
  Theorems: `C19_shard_selection`, `C19_same_shard`.
* **C20** (proved) No counter or gauge update is lost under concurrency. Proof: view based memory, invariants over all runs. View-based relaxed memory: reads may be stale, plain stores may take their place before later ones. C20_after_join: who synchronised with all updaters reads the exact total; C20_read and C20_reads_ordered: every read is a growing prefix containing the own updates; C20_linear covers set.
  Theorems: `C20_final`, `C20_after_join`, `C20_read`, `C20_reads_ordered`, `C20_linear`, `C20_linear_read`.
* **C21** (proved) Float gauge updates are applied exactly once. Proof: compare-exchange loop as steps, invariants over all runs. Same memory; compare-exchange may fail without reason, loads may be stale. C21_exactly_once per thread, C21_quiescent for the value.
  Theorems: `C21_exactly_once`, `C21_value`, `C21_quiescent`, `C21_read`.
* **C22** (proved) A histogram sample is a consistent snapshot. Proof: observe and sample instruction by instruction under a read-write lock; invariant that relates cells to completed and running observations. Instruction by instruction with the read-write lock; the load inside inc_by may return any value. Relaxed memory: C97. Each sample equals a sequential run over the completed observations, in an order that agrees with each thread and with real time (C22_order).
  Theorems: `C22_snapshot`, `C22_order`, `C22_counts`, `C22_no_panic`.
* **C23** (proved) Sparse vectors lose no update when labels are created and removed concurrently. Proof: lock steps; simulation of an abstract map by events. Lock steps of get_metric and remove_metric, guards, updates under the guard; the table order is arbitrary. C23_linearizable also shows that the expect in get_metric cannot fail.
  Theorems: `C23_linearizable`, `C23_contents`, `C23_updates`.
* **C24** (proved) Concurrent collection reports stable labels exactly once. Proof: invariant over one pass interleaved with anything else. Other threads may insert, update and remove between and (updates) within shards; an emitted state may be any between taking the lock and now.
  Theorems: `C24_pass`, `C24_shards`.
* **C25** (proved) Threads holding at most one guard never deadlock. Proof: well-founded argument over waiting threads; witnesses for nested guards. C25_progress and C25_finish under a lock that refuses readers behind waiting writers; C25_nested_blocks shows the self-deadlock, C25_nested_present_blocks the one with a waiting writer.
  Theorems: `C25_progress`, `C25_finish`, `C25_nested_blocks`, `C25_nested_reachable`, `C25_nested_present_blocks`.
* **C26** (partial) Cumulative bucket counts count observations at or below the bound. Proof: partition point search, counting, composed with the text reader. Proved end to end on the exported text for non-NaN observations and thresholds. Refuted for NaN observations, which land in the first bucket (C26_nan_refuted); C26_not_above and C26_exact state what is shown for all observations. Missing: NaN, and 2^63 or more observations, where the claim is false.
  Theorems: `C26_exact`, `C26_not_above`, `C26_nan_refuted`, `C26_counts_partial`.
* **C27** (partial) with_buckets accepts exactly strictly increasing thresholds. Proof: loop over windows; witness for the empty list. Refuted for N = 0 (C27_with_buckets_empty_refuted: with_buckets([]) panics in every build); proved for every N >= 1. C27_iff: returned exactly when not empty and strictly increasing. Missing: N = 0, where the claim is false.
  Theorems: `C27_iff`, `C27_with_buckets_empty_refuted`, `C27_with_buckets_partial`.
* **C28** (proved) linear_buckets and exponential_buckets give non-decreasing thresholds. Proof: monotonicity of correctly rounded multiplication, addition and `powi`. Linear: N up to 2^64. Exponential: N up to 2^31 because of `i as i32`; powi as the compiler-rt repeated squaring loop.
  Theorems: `C28_linear`, `C28_exponential`, `C28_first_bucket`.
* **C29** (partial) Histogram exposition is internally consistent. Proof: partial sums; witness at `2^63`. Shape proved for all states (C29_shape). Non-decreasing counts refuted from a total of 2^63 on (C29_counts_refuted), proved below (C29_counts_partial). Exact for all 64 bit totals: the running totals are shown as signed numbers, which are non-decreasing if and only if the total is below 2^63 or no count is (C29_exact). Missing: totals of 2^63 and more, where the claim is false.
  Theorems: `C29_shape`, `C29_counts_partial`, `C29_counts_refuted`, `C29_exact`.
* **C30** (proved) Timers record exactly once unless forgotten. Proof: all uses of a timer (drop, observe, forget) with drop glue. Labelled and unlabelled timers, drop glue included; leaking a timer with mem::forget is outside.
  Theorems: `C30_one_observation`, `C30_vec_timer`, `C30_timer`.
* **C31** (proved) Label value escaping is lossless and safe. Proof: reader of label values inverts the escaping loop. All byte strings; injectivity follows from the reader.
  Theorems: `C31_escape_lossless`, `C31_escape_injective`.
* **C32** (proved) A sample line parses back to its name, labels and value. Proof: reader of sample lines inverts the writer. Relative to the stated contract of the float formatter (FloatText: ASCII, not an integer, reads back).
  Theorems: `C32_sample_reads_back`, `C32_labels_meaning`.
* **C33** (partial) The whole text exposition parses back to the collected families. Proof: reader of whole expositions inverts the collection of families. Refuted for help texts with a backslash (C33_help_backslash_refuted). Proved for help without newline, backslash and leading blank, and for counts below 2^63. Exact for all help texts without line feed and all 64 bit counts: C33_exact says what is read back and where the blank lines are, or that the text is refused, C33_help_iff which help texts are read back unchanged. Missing: other help texts and counts, where the claim is false.
  Theorems: `C33_help_backslash_refuted`, `C33_exposition_partial`, `C33_exact`, `C33_help_iff`.
* **C34** (partial) Help text stays on its line. Proof: exact count of lines. Refuted (C34_help_refuted); C34_help_lines counts the lines exactly; C34_exact says what is written for all help texts: what follows a line feed is in the exposition as it is; C34_inject and C34_forge: so a help text can add any lines and any families. Proved for newline-free help. Missing: help with newlines, where the claim is false.
  Theorems: `C34_exact`, `C34_inject`, `C34_forge`, `C34_help_lines`, `C34_help_refuted`, `C34_help_partial`.
* **C35** (partial) Text output shows the true counter value. Proof: two-complement reading of `as i64`. Refuted for every count from 2^63 on (C35_counter_value_refuted), proved below. Exact for all 64 bit counts of all metrics: counts are shown as signed numbers (C35_exact). Missing: counts of 2^63 and more, where the claim is false.
  Theorems: `C35_counter_value_refuted`, `C35_counter_value_partial`, `C35_exact`.
* **C36** (proved) A text encoder can be reused after finish or flush. Proof: state of the encoder after finish/flush equals a fresh one. finish and flush, also after calls that panicked.
  Theorems: `C36_reuse_after_finish`, `C36_reuse_after_flush`.
* **C37** (partial) Ok from the text encoder means everything was written. Proof: invariant over arbitrary writers: what was accepted is the output. Refuted: a writer failing once inside a label loses bytes although Ok is returned (C37_lost_bytes_refuted). Proved for writers that keep failing once they failed, and for all writers when nothing labelled is written. Exact for all writers: only bytes between the braces of samples can be missing (C37_only_labels). Missing: recovering writers and labels, where the claim is false.
  Theorems: `C37_lost_bytes_refuted`, `C37_sticky_partial`, `C37_unlabelled_partial`, `C37_only_labels`, `C37_lost_meaning`.
* **C38** (partial) Metric name validation matches the documented regex. Proof: loops against a regular expression semantics. from_str is exact. try_from_str is refuted: it accepts `-` (C38_try_from_str_refuted); C38_try_from_str_exact gives the accepted language, C38_try_from_str_partial the claim for strings without `-`.
  Theorems: `C38_from_str`, `C38_try_from_str_refuted`, `C38_try_from_str_exact`, `C38_try_from_str_partial`.
* **C39** (proved) Label name validation matches the documented regex. Proof: the same. 
  Theorems: `C39_label_name`.
* **C40** (proved) Name composition is correct, valid and its length is exact. Proof: induction over names (suffixes and namespaces). 
  Theorems: `C40_composition`, `C40_length`, `C40_valid`.
* **C41** (partial) Metric groups collect in order under the right names. Proof: induction over the group tree for every encoder. Order, names and the first error proved for every group tree and every encoder. Refuted for an absent Option metric with a doc comment, which still writes its HELP (C41_absent_refuted); an invalid namespace attribute panics at every scrape (C41_bad_namespace_panics). C41_absent_iff: a field makes no calls exactly when it is absent and undocumented. Missing: absent documented fields, where the claim is false.
  Theorems: `C41_absent_iff`, `C41_collect`, `C41_names`, `C41_first_error`, `C41_absent_refuted`, `C41_absent_partial`, `C41_bad_namespace_panics`, `C41_text_partial`.
* **C42** (proved) Varint encoding round-trips with the computed length. Proof: LEB128 reader inverts the loop; prefix freedom. 
  Theorems: `C42_varint_round_trip`, `C42_varint_length`, `C42_varint_prefix_free`, `C42_key`.
* **C43** (partial) Every protobuf length prefix is exact. Proof: lengths computed in advance equal the bytes written; message reader inverts. Label pairs, samples and families: announced lengths are exact in both builds and messages read back; any call sequence that starts with write_help or write_type. Refuted for a sample as the first call on a new encoder, where nothing is reserved and the length overwrites message bytes (C43_unreserved_refuted); C43_exact: then exactly the first ten bytes of the first message are lost. Missing: that case, where the claim is false.
  Theorems: `C43_label_pair`, `C43_sample`, `C43_family_partial`, `C43_stream_partial`, `C43_unreserved_refuted`, `C43_exact`.
* **C44** (partial) A protobuf scrape decodes to the collected families. Proof: whole scrape through the `MetricFamily` reader. Proved for lists of families where no family with help and without samples precedes one without help. Refuted otherwise (C44_leak_refuted: samples appear under the name of the preceding family) and for reuse of the encoder after such a family (C44_reuse_refuted). C44_exact says what any sequence of calls and scrapes decodes to, these cases included. Missing: those lists, where the claim is false.
  Theorems: `C44_partial`, `C44_leak_refuted`, `C44_reuse_refuted`, `C44_blocks`, `C44_exact`.
* **C45** (partial) Counter values are exact in protobuf. Proof: rounding of `u64 as f64`. Refuted at 2^53+1; C45_exact_iff characterises the exact counts; proved up to 2^53, also for gauges. Missing: the other counts, where the claim is false.
  Theorems: `C45_exact_iff`, `C45_partial`, `C45_gauge_partial`, `C45_refuted`.
* **C46** (partial) Process metrics describe the process given to the collector. Proof: case analysis, then the text reader. The operating system is an arbitrary table of processes. Fds, memory, cpu and threads of the given pid proved through the text reader. Refuted for the start time, which is that of the collecting process (C46_start_refuted); C46_self_partial covers the own pid, C46_exact says what is shown for every pid. C46_wide_partial, C46_wide_panics and C46_wide_start are for quantities of any size: shown as their 64 bit two's complement unless a number cannot be computed (overflow in debug builds, a quotient by zero), where the code panics. Missing: the start time of another process, where the claim is false.
  Theorems: `C46_exact`, `C46_usage_partial`, `C46_self_partial`, `C46_gone`, `C46_start_refuted`, `C46_wide_partial`, `C46_wide_panics`, `C46_wide_start`.
* **C47** (proved) Concurrent first use of a dense label creates a single state. Proof: `OnceLock` steps with stale loads; invariants over runs. OnceLock with stale loads, waiting initialisers and panicking M::default; every initialisation makes a distinct state. C47_same, C47_once, C47_updates; C47_emit and C47_skip for collections.
  Theorems: `C47_once`, `C47_same`, `C47_updates`, `C47_emit`, `C47_skip`, `C47_progress`.
* **C48** (proved) Tokio poll-time histogram is cumulative and labelled per runtime. Proof: list induction over runtimes, workers and buckets, then the text reader. Runtime metrics are arbitrary functions with counts below 2^63. C48_calls for every encoder, C48_text through the reader. Without the bound on counts: C48_panics says when exactly a scrape panics, C48_buckets_wrap what the buckets then count in release builds.
  Theorems: `C48_calls`, `C48_labels`, `C48_text`, `C48_buckets`, `C48_cumulative`, `C48_bounds`, `C48_panics`, `C48_buckets_wrap`.
* **C49** (proved) Text output is valid UTF-8. Proof: every written piece is UTF-8. Floats formatted in ASCII is the only assumption on ryu.
  Theorems: `C49_utf8`.
* **C50** (proved) Any sequence of encoder calls reads back line by line. Proof: arbitrary call sequences through the line reader. Names valid, help plain, counts below 2^63 (the cases where C33 is not refuted). C50_exact and C50_accepted: all help texts and 64 bit counts, with what a reader finds for them.
  Theorems: `C50_lines`, `C50_resume`, `C50_exact`, `C50_accepted`.
* **C51** (proved) Durations become seconds accurately and in order. Proof: error bound of correctly rounded division and addition. Model of as_secs_f64 as (secs as f64) + (nanos as f64) / 1e9 with correctly rounded operations.
  Theorems: `C51_accurate`, `C51_monotone`, `C51_strict`, `C51_gap`.
* **C52** (partial) Every exposed family carries its type. Proof: every sample call of a family is preceded by its type call; witnesses for hand written collectors. Refuted for the tokio and process collectors, which write no TYPE (C52_tokio_refuted, C52_process_refuted). Proved for metrics, vectors and derived groups. C52_exact: for any calls, the typed families are exactly those of the TYPE calls. Missing: hand written collectors, where the claim is false.
  Theorems: `C52_exact`, `C52_typed_partial`, `C52_tokio_refuted`, `C52_process_refuted`.
* **C53** (proved) Shared and exclusive references agree. Proof: each call follows its effect on integers modulo 2^64; induction over calls. counter_release/debug/exact, gauge_release/debug, float and histogram (C53_observe_mut: the exclusive observe does the same as the shared one); both kinds of references are modelled by separate functions.
  Theorems: `C53_counter_release`, `C53_counter_debug`, `C53_counter_exact`, `C53_gauge_release`, `C53_gauge_debug`, `C53_gauge_wrapped`, `C53_float`, `C53_histogram`, `C53_observe_mut`.
* **C54** (proved) From calls on a vector to the scrape. Proof: refinement of C09 lifted to metric operations, then collection (C15) and the text reader (C33). For any GroupSet that satisfies the laws proved in C02, C07 and C08; names valid, counts below 2^63 (the cases where C33 and C35 are not refuted), histogram bounds and observations not NaN.
  Theorems: `C54_counter`, `C54_gauge`, `C54_float`, `C54_histogram`.
* **C55** (proved) Duration histograms count durations. Proof: cumulative counts (C26) and the order of rounded durations (C51). On the model of observe, with the timers of C30.
  Theorems: `C55_histogram`.
* **C56** (partial) No series appears twice in a scrape. Proof: text values read back, so equal texts would be equal labels; witnesses. Refuted: with_buckets accepts +Inf (C56_inf_refuted), linear_buckets can produce equal bounds (C56_linear_refuted). Proved for counters, gauges and, if the bounds are strictly increasing and below +Inf and no label is called le, histograms. C56_no_labels, C56_derived and C56_composed_partial show that label groups meet the hypothesis. C56_histogram_iff: the series of one histogram differ exactly if its bounds and +Inf do; C56_family_iff: those of a family exactly if moreover no two label groups are written alike. Missing: the remaining cases, where the claim is false.
  Theorems: `C56_histogram_iff`, `C56_family_iff`, `C56_vector`, `C56_histogram_partial`, `C56_no_labels`, `C56_derived`, `C56_composed_partial`, `C56_counter`, `C56_gauge`, `C56_float`, `C56_histogram_used_partial`, `C56_inf_refuted`, `C56_linear_refuted`.
* **C57** (partial) No sample has two labels with the same name. Proof: the names are written unchanged; witnesses. Refuted for composed groups with a common label name (C57_composed_refuted) and histograms with a label named le (C57_le_refuted). Proved for groups with distinct names without le; C57_iff: these are exactly the groups for which it holds. Missing: the remaining cases, where the claim is false.
  Theorems: `C57_iff`, `C57_names_partial`, `C57_counter`, `C57_gauge`, `C57_float`, `C57_histogram_partial`, `C57_composed_refuted`, `C57_le_refuted`.
* **C58** (proved) Derive attributes are accepted exactly when they do not contradict each other. Proof: invariant of the parser state over the arguments seen so far; permutations. Rust syntax (syn) is not modelled: an attribute is the list of its arguments.
  Theorems: `C58_metric_attrs`, `C58_order`, `C58_label_attrs`, `C58_enum_attrs`.
* **C59** (proved) A derived metric group is what its declaration says. Proof: induction over the fields. shout (heck) and the check that a field type implements the trait are parameters; C41 gives the calls of the items.
  Theorems: `C59_compiles`, `C59_items`.
* **C60** (proved) Constructors of derived label sets. Proof: stable sorting by key is a partition; the invariant that fixed implies default. Attributes as C58 accepts them.
  Theorems: `C60_ctor`.
* **C61** (partial) Distinct variants have distinct labels. Proof: injectivity of discriminants; witness. Refuted: two variants may be renamed alike (C61_refuted). C61_discriminants: the numbers are those of the language. C61_labels_partial: that, or two names that heck converts alike, is the only way for equal label values; but a discriminant and a rename can be shown alike (C61_number_refuted). C61_shown_alike_iff: when two values are shown alike; C82: when two names are converted alike. Missing: these cases, where the claim is false.
  Theorems: `C61_refuted`, `C61_labels_partial`, `C61_discriminants`, `C61_number_refuted`, `C61_shown_alike_iff`.
* **C62** (partial) No family appears twice in a derived group. Proof: the constants of the generated function; the names of a struct are those shown by its fields; witness. Refuted: a field in a namespace and one under the full name (C62_refuted). C62_names_partial for structs of metric fields only; C62_nested_partial says for any struct exactly when no family name comes twice; C62_prefix_partial gives a condition on the namespaces and flattened groups that is enough. Missing: the claim without such a condition, which is false.
  Theorems: `C62_refuted`, `C62_names_partial`, `C62_nested_partial`, `C62_prefix_partial`.
* **C63** (partial) Text and protobuf expositions agree. Proof: both outputs are computed from the families (proofs of C33 and C44) and compared sample by sample. Refuted for counts of 2^63 and more, negative in text (C63_refuted). C63_agree_partial under the conditions of C33 and C44; C63_iff: exactly when they agree, for help texts without line feed. Missing: other help texts, larger counts and pending help texts, where the claim is false.
  Theorems: `C63_agree_partial`, `C63_refuted`, `C63_iff`.
* **C64** (proved) Successive scrapes never go back. Proof: views only grow, prefixes of the modification order; completed observations only grow; rounding is monotone. On the concurrent models of C20 and C22. C64_unsynced: without an order between the scrapes a relaxed read may be stale, so a second scrape may show less.
  Theorems: `C64_counter`, `C64_unsynced`, `C64_histogram`, `C64_sum`.
* **C65** (proved) Calls on metrics do not get stuck. Proof: case analysis on who holds the lock; a measure that every step decreases. Under a lock that refuses readers behind waiting writers, loads that return the latest value and compare-exchanges that fail only for a reason; vectors are C25.
  Theorems: `C65_histogram_progress`, `C65_histogram_finish`, `C65_float_progress`, `C65_float_finish`.
* **C66** (proved) Label ids agree between threads. Proof: invariant: every id handed out, and the part of the tuple of a thread inside encode, decodes to the field values; C66_alone ties the steps to the sequential function. One call on an interner is one step (lasso is code of another crate); an id passed to decode comes from an encode of the same set (C18). C66_shared: any number of label group sets on the same interners.
  Theorems: `C66_agree`, `C66_decode`, `C66_no_panic`, `C66_alone`, `C66_alone_panic`, `C66_alone_decode`, `C66_shared`.
* **C67** (proved) Series stay between scrapes of a vector. Proof: from C24 (moments of a pass) and C23 (the map only grows without removals); knowledge passed on in the model of C47. For dense vectors the second thread must have synchronised with the first (or be it): C67_dense; for sparse ones the locks see to that.
  Theorems: `C67_sparse`, `C67_dense`, `C67_counters`, `C67_counters_dense`.
* **C68** (proved) A scrape of a vector in use shows true values. Proof: a pass of the models of C23/C24 (or C47) emits lists of calls; `passEncode` feeds the values they add up to to the text encoder; reading back as in C54. C68_counter, C68_gauge, C68_float and C68_histogram for sparse vectors, C68_*_dense for dense ones, where *at some moment* becomes *the first so many calls, with all those the scraping thread knew of*, as nothing orders relaxed updates between threads. C68_quiet: without changes meanwhile the text is the vector. C68_bounds: a counter is between its values at the start and at the end.
  Theorems: `C68_counter`, `C68_gauge`, `C68_float`, `C68_histogram`, `C68_counter_dense`, `C68_gauge_dense`, `C68_float_dense`, `C68_histogram_dense`, `C68_quiet`, `C68_bounds`.
* **C69** (partial) Generated bucket bounds are what they are documented to be. Proof: the arithmetic of the model is proved to be correctly rounded (`Proof/Rounding`), then errors are added up along `powi`; witnesses. Panics: C69_linear_panics, C69_exponential_panics, C69_nan_panics. C69_linear is the whole claim for linear bounds. For exponential ones it is false where factor^i overflows (C69_overflow_refuted) and below the normal numbers (C69_subnormal_refuted); C69_exponential_partial has the claim for finite bounds from a normal start; C69_exponential_exact says what the bounds are for all starts and factors. Missing: the other starts and bounds, for which it is false.
  Theorems: `C69_linear_panics`, `C69_exponential_panics`, `C69_nan_panics`, `C69_linear`, `C69_exponential_partial`, `C69_overflow_refuted`, `C69_subnormal_refuted`, `C69_exponential_exact`.
* **C70** (proved) Sums are accurate. Proof: from C22, C26 and C21 (which list of additions it is), then the error of a list of additions, by induction. C70_histogram for samples, C70_text for the line in the output, C70_float for gauges that are only changed, C70_float_set for gauges that are also set (the changes after the last set count).
  Theorems: `C70_histogram`, `C70_text`, `C70_float`, `C70_float_set`.
* **C71** (proved) A scrape of a whole group in use shows true values. Proof: runs of the group project to runs of the fields; C20, C21, C22, C24 and the dense counterpart per field, then the text reader (C33). C71_group; what each field must show is the inductive definition FieldInUse (Spec/Registry), which has sparse vectors both by key and, together with their interners, by label group (C75), and vectors of histograms both as one step per observation and step by step (C84, C86: bucket, sum and sample under the lock of each histogram). C71_fields asks only for a run of each field: if several vectors share interners, C75_shared gives these.
  Theorems: `C71_fields`, `C71_group`.
* **C72** (proved) A protobuf scrape of a whole group in use shows true values. Proof: as C71, with the protobuf reader (C44). C72_group and C72_fields, with the same definition; a field with help may be followed by one without if it is sure to have an entry (C44).
  Theorems: `C72_fields`, `C72_group`.
* **C73** (partial) Protobuf scrapes by the process and tokio collectors show what the text shows. Proof: blocks of HELP and samples through C44_exact; families without samples are not written. C73_process_partial, C73_tokio_partial say exactly what is decoded. Missing, because false: types (no collector writes one, so gauges read as counters without a value, C73_type_refuted) and the names of samples (the protobuf encoder ignores them, C73_names_refuted).
  Theorems: `C73_process_partial`, `C73_type_refuted`, `C73_tokio_partial`, `C73_names_refuted`.
* **C74** (partial) The runtime collectors show no series twice. Proof: samples of the table of C48 pairwise apart, by families; then as C56. C74_distinct_partial: distinct runtime names and bucket ends that differ by one part in 2^49. With two runtimes of one name every scrape has duplicates (C74_same_name_refuted); C74_iff: with named runtimes whose bucket ends differ, exactly then. C74_names: no condition.
  Theorems: `C74_iff`, `C74_distinct_partial`, `C74_names`, `C74_same_name_refuted`.
* **C75** (proved) A vector in use shows the right value under every label group. Proof: the model of C66 (interners) and that of C23/C24 (map) run side by side, sharing the ids handed out; projections, then as C68. C75_counter, C75_gauge, C75_float, C75_histogram; C75_keys: every key decodes; C75_no_panic; C75_series and C75_series_histogram: no series twice; C75_shared: with many vectors on the same interners, what happens on one of them is still such a run.
  Theorems: `C75_keys`, `C75_no_panic`, `C75_counter`, `C75_gauge`, `C75_float`, `C75_histogram`, `C75_series`, `C75_series_histogram`, `C75_shared`.
* **C76** (proved) Two scrapes of a whole group in use: nothing goes back, nothing vanishes. Proof: `FieldTwice` (Spec/Scrapes): per field, a run with two scrapes; each is a scrape as in C71 (twice_first, twice_second). C64 and C67 (with C66 for label groups) relate the entries of the two; lines of a series with a later value are not less (shown_later); then the texts and messages as in C71 and C72. C76_group (text) and C76_messages (protobuf); C76_fields and C76_fields_messages ask only for a run of each field (shared interners, C75_shared). Vectors of histograms are covered step by step too (hv_twice, hd_twice in Proof/HistTwice). Without synchronisation between the two scrapes it is false for relaxed reads: C64_unsynced.
  Theorems: `C76_fields`, `C76_group`, `C76_fields_messages`, `C76_messages`.
* **C77** (proved) Which types the derive macros accept. Proof: induction over arguments and fields; `TryFrom<DeriveInput>` of the three macros (Model/DeriveInput) on top of the parsers of C58. C77_label_group, C77_metric_group, C77_enum: acceptance is an equivalence. Parsing of Rust by syn and the checks of rustc on the generated code are outside the model (C59 has those of the generated constants); that named fields have an identifier is what syn guarantees.
  Theorems: `C77_label_group`, `C77_metric_group`, `C77_enum`.
* **C78** (proved) The test visitor shows what the encoders show. Proof: case analysis of the value; escaping is undone by the reader (C31), fields by the decoder (C43). C78_agree, for all number formatters that read back (FloatText).
  Theorems: `C78_agree`.
* **C79** (partial) Runtimes may be added to a collector while it is scraped. Proof: invariant over all steps of all threads: the list is what was pushed, the lock excludes, a reader has run a prefix of the families on the present list. The last part is false: add_current panics while it holds the write guard, which poisons the lock, and every later scrape and addition panics (C79_failed_add_refuted). C79_exact: a call panics at the lock if and only if that has happened before. C79_no_lock_panic_partial: without failed add_current no call does. Missing: the last part, where the claim is false.
  Theorems: `C79_scrape`, `C79_add`, `C79_added`, `C79_progress`, `C79_failed_add_refuted`, `C79_exact`, `C79_no_lock_panic_partial`, `C79_text`.
* **C80** (proved) The example server counts every request, once, under its own labels. Proof: an invariant per request over all steps (where it is in the middleware says which events and updates it has made), then C66/C75 for the three vectors with the shared interner and C72 for the text; runs of served requests are built by induction over the list of requests. Every request a thread; the crate lasso by contract.
  Theorems: `C80_thresholds`, `C80_labels`, `C80_no_panic`, `C80_refused`, `C80_self`, `C80_scrape`, `C80_series`, `C80_serves`, `C80_sequential`.
* **C81** (proved) Numbers are written by the shortest decimal that is read back. Proof: Model/Ryu: the documented contract of `ryu` (shortest, then nearest) as a search over powers of ten, and the layout of its `pretty::format64`; the tables of `d2d` are not modelled. Rounding a quotient is monotone and exact on doubles, so if any multiple of a power of ten is rounded to the double one of the two next to it is; with 17 digits one always is (the gap to the neighbours is at least one part in 2^53). The text is read back digit by digit in each branch of the layout; correct rounding has one result (`RoundsTo.unique`). For the contract of ryu (shortest, then nearest), not its algorithm.
  Theorems: `C81_contract`, `C81_shortest`, `C81_texts`, `C81_length`, `C81_injective`, `C81_reader`, `C81_sample`.
* **C82** (proved) Labels of variants and constants of fields follow the words of their names. Proof: Model/Heck: `transform` of heck 0.5.0 and the eight ways it is called, for ASCII. The scan is shown equal to one that remembers the case of the last letter; its result satisfies, and is the only one to satisfy, the definition of words in Spec/Case. C82_raw: a raw identifier is shown with its r.. For ASCII identifiers; heck 0.5.0 from its published source.
  Theorems: `C82_words`, `C82_style`, `C82_label`, `C82_same`, `C82_same_camel`, `C82_again`, `C82_usual`, `C82_variants`, `C82_const`, `C82_const_same`, `C82_group`, `C82_raw`.
* **C83** (proved) The example server has a bounded number of series. Proof: Model/Routes: the routes of main.rs, nested as axum nests them, and their handlers. The search among the routes and the percent-decoding are axum's: any functions, the first with the two laws of `Finds` (what it finds is a route that the path is an instance of; it finds something if there is one). C83_all_answers: every line of the table is met. Proof: C83_status: each status, from a flat table of the routes; case analysis over the seven routes; a decidable check that no two routes have a common instance; then C80_scrape, C80_refused and C80_sequential with label groups from a finite list. For every search of axum among the routes that has the laws Finds.
  Theorems: `C83_routes`, `C83_one_route`, `C83_label`, `C83_paths`, `C83_answers`, `C83_status`, `C83_never_refused`, `C83_bounded`, `C83_sequential`, `C83_all_answers`.
* **C84** (proved) A vector of histograms in use: observing and sampling are not single steps. Proof: Model/HistVec: the steps of C23 on the map, with entries that record nothing, and for each key those of C22 on its histogram, tied together by who holds a guard or stands at the entry. Simulation: a map whose updates are the additions to the sums. A histogram is created and removed only under the write lock of its shard, when nobody is at work on it; then C22, C23 and C24 apply. C84_linear: the run in which observations are single steps; C84_sample, C84_removed, C84_no_panic; C84_pass and C84_text for a collection.
  Theorems: `C84_linear`, `C84_sample`, `C84_removed`, `C84_no_panic`, `C84_pass`, `C84_text`.
* **C85** (proved) Nobody waits for ever on a vector of histograms. Proof: If a histogram is in use, C65 for it, with the invariant of C84 that says what the thread in question is doing on the map; else C25. The measure adds up those of C25 and C65, where every entry counts a sampling that is still to come for every thread. C85_progress and C85_finish. Fair scheduling is not needed; compare-exchanges fail only for a reason and loads return the latest value, as in C65. A thread that keeps a guard can block itself: C25_nested_blocks.
  Theorems: `C85_progress`, `C85_finish`.
* **C86** (proved) A dense vector of histograms in use. Proof: A run is a run on the cells (C47) and one on each histogram (C66); a state belongs to one cell, so that the observations on the label are those on the histogram. Collections by dense_pass; the text by the lemma of C84. Progress by C65 and the cells; the measure counts for each cell ahead a sampling by every thread. C86_sample, C86_no_panic (lookups can panic only if the Default of the metric type does), C86_pass and C86_text for what is shown; C86_progress and C86_finish. Needs no rule about guards, other than C85: a dense vector has no lock of its own.
  Theorems: `C86_sample`, `C86_no_panic`, `C86_pass`, `C86_text`, `C86_progress`, `C86_finish`.
* **C87** (proved) The three families of the example server agree with each other. Proof: An update of a request by its key is its only one in the vector (the invariant of C80), so that the updates of a metric at a moment are the requests counted for its group then. Sums over a family are the numbers of lists of different requests, compared by inclusion; what a request has done on one vector follows from where it is in the middleware. C87_exact for the numbers; C87_answered (in the order of the handler), C87_ahead, C87_more (the run) and C87_open for sums in one text; C87_later for two. Requests whose label is refused by a full interner count as not answered.
  Theorems: `C87_exact`, `C87_answered`, `C87_ahead`, `C87_open`, `C87_later`, `C87_more`.
* **C88** (proved) Exports of the example server share one encoder. Proof: Model/Export: the steps of Model/Server, with the handler step by step (mutex, heads of families, one sample for each entry of the map, `finish`) on one encoder. Only who has the mutex changes the encoder; so what one export has written is what `collect_group_into` writes for the passes it has made (the exports before have left the encoder empty), and C80 and C87 apply to the run on the vectors. C88_alone: the mutex; C88_text and C88_response: a text; C88_answered, C88_later, C88_no_crash. C89 has that exports come to their end.
  Theorems: `C88_alone`, `C88_text`, `C88_response`, `C88_answered`, `C88_later`, `C88_no_crash`.
* **C89** (proved) Requests and exports of the example server always come to an end. Proof: Where a request is in middleware and handler says where it is on each vector and what it holds (an invariant over all steps). Hence who neither rests nor waits for a lock can go on, and if all who do not rest wait, no shard is locked: then a waiting writer can get its lock, or else a reader; the mutex is free, or its holder waits for a shard. The measure is the place of a request in the middleware and the handler, then what it has left to do on each vector; tables have at most as many entries as requests have begun. C89_progress, C89_bounded and C89_finish; C89_rest, C89_outcome and C89_export for the state they come to; C89_await. What the service inside does is the environment; whether a waiting request is the next to get the mutex is left open, so one request may wait as long as others come.
  Theorems: `C89_progress`, `C89_bounded`, `C89_finish`, `C89_rest`, `C89_outcome`, `C89_export`, `C89_await`.
* **C90** (proved) The example server with its histograms step by step. Proof: Model/ExportHist: the steps of Model/Export, with those of Model/HistConc for each key of the durations. The invariant relates the state to one of Model/Export: the same but for what the entries record, the histogram of each key being a run of C21 for what is recorded under the key, and a request being one step further once its duration is in the sum.. C90_refine: the refinement; C90_response, C90_answered, C90_later, C90_alone and C90_no_crash carry over C87 and C88; C90_no_panic: the histograms.
  Theorems: `C90_refine`, `C90_alone`, `C90_response`, `C90_answered`, `C90_later`, `C90_no_crash`, `C90_no_panic`.
* **C91** (proved) With its histograms step by step, the example server never gets stuck. Proof: Whoever is on a histogram observes its own duration or writes the entry for it (an invariant). If somebody is, the progress on one histogram (C85) is a step of the server; if nobody is, the steps of the server with single-step histograms (C89) are steps here, or the first step of observe or sample. The measure of C89, weighted, falls with each step that stands for one; entering observe or sample uses up an allowance, and pays for the steps inside, whose measure is that of a histogram.. C91_progress, C91_bounded and C91_finish; C91_rest, C91_outcome and C91_export for the state they come to. Loads of the sum return its current value here and compare-exchanges fail only if the sum has changed (C90 needs neither); with spurious failures for ever no bound holds.
  Theorems: `C91_progress`, `C91_bounded`, `C91_finish`, `C91_rest`, `C91_outcome`, `C91_export`.
* **C92** (partial) What the fields of a label group are called does not matter. Proof: the body of the generated function as statements over named variables with a scope; types are kept; a simulation of the function of C02; scopes after the fixed and dynamic fields computed. False in one case: in debug builds, with a first fixed field called index whose type can be compared with numbers, decode panics (C92_index_refuted). C92_compiles: exactly which names compile; C92_plain; C92_round_trip_partial and C92_same_partial: all other names, and all names in release builds; C92_exact: what happens in that case. Missing: that one case, where the statement fails. Field types that can be divided by a usize are left out.
  Theorems: `C92_compiles`, `C92_plain`, `C92_round_trip_partial`, `C92_exact`, `C92_same_partial`, `C92_index_refuted`.
* **C93** (partial) A protobuf encoder whose writer fails. Proof: simulation of the encoder over a buffer by the encoder over an arbitrary writer, closed under sequencing; a failing flush leaves all pending fields after ten bytes; fields of two blocks decode to one family. C93_ok, C93_error, C93_working: for all calls; C93_no_panic: all scrapes kept going after errors. The last part is false: after a failed write the block is still in the buffer, and its samples appear under the name of the next family (C93_reuse_refuted). C93_exact: which block is lost in a failing scrape and what the following scrapes show. C93_attempts: the same for any scrapes of which any may fail. C93_reuse_partial: as long as no scrape fails. Missing: the last part after a failure, where the claim is false. `flush` of the writer itself: C95.
  Theorems: `C93_ok`, `C93_error`, `C93_working`, `C93_no_panic`, `C93_reuse_partial`, `C93_exact`, `C93_attempts`, `C93_reuse_refuted`.
* **C94** (proved) A text encoder whose writer fails. Proof: as for C37, with the error case: a relation between runs over a buffer and over an arbitrary writer, closed under sequencing; the cumulative sums of histograms for the panics. Label names match the documented regular expression. `flush` of the writer itself: C95.
  Theorems: `C94_error`, `C94_panic_iff`, `C94_no_panic`, `C94_working`, `C94_reuse`, `C94_unflushed`.
* **C95** (proved) A flush leaves nothing in a buffered writer. Proof: a homomorphism from writers with a buffer to writers without one, closed under sequencing; C37, C93 and C94 for the image. Label names match the documented regular expression.
  Theorems: `C95_text_ok`, `C95_text_error`, `C95_text_working`, `C95_text_state`, `C95_proto_ok`, `C95_proto_error`, `C95_proto_working`.
* **C96** (proved) The buffered text encoder cannot fail. Proof: each run of the text encoder over a buffer is Ok or panics (C94); induction over the session with the calls since the last finish. BytesMut by contract: `put` does not fail. Overflow of counts: `Overflows` (Spec/TextFail). C96_reads_back for the families of C33.
  Theorems: `C96_collection`, `C96_session`, `C96_results`, `C96_reads_back`.
* **C97** (proved) The lock of a histogram makes up for relaxed atomics. Proof: invariant: for every cell, the last modification is known to the lock or to a thread that holds it for reading; the sampler knows all; then each step is one of the model of C22 on the last values. View-based memory for all cells of a histogram; threads got their reference to it from its creator, so that the initial values are known. C97_refines: every run is a run of the model of C22. C97_no_race: the sampler knows all modifications, and none can follow before it lets go.
  Theorems: `C97_refines`, `C97_snapshot`, `C97_counts`, `C97_later`, `C97_no_panic`, `C97_no_race`.
* **C98** (proved) What an id of a different vector does. Proof: the vector simulates the map of C09 before the access; dense and well-hashed ids are own ids of some group; the other tables are computed, samples compared up to order. Any id, key and number free. C98_sparse_twice asks for different shards: within one shard hashbrown may or may not find the entry, depending on 7 bits of the hashes. One thread at a time.
  Theorems: `C98_dense`, `C98_sparse_hashed`, `C98_sparse_twice`, `C98_sparse_unknown`.
* **C99** (proved) The locks of a sparse vector make up for relaxed atomics. Proof: invariant: the last modification of every metric is known to the lock or to a reader, a writer knows all; what happens before (computed from the events) is never more than what views know. One shard (shards share nothing), any keys and threads; a thread has one guard at a time. C99_weak_lock_stale: with a lock that promises no more than locks do in general, a collection may miss updates whose guards were dropped long before; parking_lot rules that out.
  Theorems: `C99_events`, `C99_updates`, `C99_no_panic`, `C99_no_race`, `C99_released`, `C99_synced`, `C99_own`, `C99_again`, `C99_forward`, `C99_weak_lock_stale`.

## Findings

Behaviour of the code that the proofs brought to light. Each item with an id has a theorem.

* `MetricName::try_from_str` accepts `-` (C38). Help text is written without escaping: a newline breaks the format
  (C34), a backslash changes the text (C33), leading blanks are lost.
* Counts of `2^63` and more are printed as negative numbers (C35, C29). In protobuf, counts above `2^53` lose
  digits (C45).
* Derived groups with more than `2^64` combinations give two groups the same id in release builds and panic in debug
  builds (C05). A field without values before an overflow can panic in debug builds although nothing can be encoded.
* `ComposedGroup::encode` may leave strings interned when its second part fails.
* An absent `Option` metric with a doc comment still writes its HELP line; an invalid `namespace` attribute panics at
  every scrape instead of at compile time (C41).
* `ProtoEncoder`: a family with help and without samples followed by a family without help attributes the samples of the
  second to the first (C44_leak); what is left over leaks into the next scrape (C44_reuse); a sample as the very first
  call corrupts the message (C43_unreserved). It has no histogram support.
* The process and tokio collectors write no TYPE lines (C52), so that scrapers see untyped metrics, and with
  `ProtoEncoder` they need not start a family with help.
* With `ProtoEncoder`, whose families without type read as counters, the gauges of the process collector have no value
  for a reader that goes by the type; and the buckets, counts and sums of tokio's `worker_poll_time_seconds` end up in one
  family in which count and sum have the same labels (C73).
* `TextEncoder` swallows I/O errors inside labels (C37).
* A NaN observation lands in the first bucket (C26). `Thresholds::with_buckets([])` always panics (C27). A `linear_buckets`
  with infinite width gives NaN thresholds.
* `remove_metric` on dense vectors does nothing (documented).
* `ProcessCollector` reports its own start time for every pid (C46); cpu seconds are cut to whole seconds.
  Quantities above `i64::MAX` come out negative, such as a descriptor limit of `u64::MAX`, which is shown as `-1`.
* A thread that takes a guard while holding another one can block itself (C25).
* `CounterMut`/`GaugeMut` panic on overflow in debug builds where the shared counters wrap (C53).
* Variants of an enum label may be renamed to the same string, which gives duplicate series (C61); `rename` on a variant
  with a discriminant is ignored. A discriminant 7 and a variant renamed to "7" are shown alike.
* A `namespace` or `flatten` field may repeat the name of another family (C62). Doc comments on such fields are ignored.
* `#[doc(hidden)]` on a metric field does not compile; neither does a trailing comma in the `#[label(…)]` of an enum.
  The generated `new` of a label set takes its arguments dynamic fields first, not in declaration order (C60).
* `default_shard_amount` overflows for a parallelism of `2^62` and more. The cumulative sum in the histogram output can
  overflow (a panic in debug builds) after `2^64` observations.
* Tokio: `_count` and the `+Inf` bucket are sampled separately; two bucket bounds that differ by less than `2^-49`
  relatively may be printed as the same `le` (C48); `NamedRuntimesCollector` permits two runtimes with one
  name, which shows every series twice (C74).
* `Thresholds::with_buckets` accepts a `+Inf` bound, which gives two `le="+Inf"` series; `linear_buckets` may produce
  equal bounds (`2^53` with width 1), which gives two equal `le` series (C56).
* `ComposedGroup` may visit a label name twice, and a label may be called `le` on a histogram (C57). Derived groups are
  safe: equal names of fields clash at compile time.
* An enum label may have the value `1` and another variant renamed to `"1"`; both are written alike.
* `HistogramMut::observe` calls the shared `observe`; `observe_mut` is never used.
* `exponential_buckets` multiplies `start` by `factor^i`, so a bound is `+Inf` as soon as the power overflows, even if the
  product would not (C69). With a subnormal start, bounds are far off.
* `NamedRuntimesCollector::add_current` calls `Handle::current()` while it holds the write guard of a standard library
  lock. Outside a runtime the documented panic poisons the lock: every later scrape and addition panics (C79).
* The comment on the thresholds of the example server says that they go up to 6.5 s; the sixteen bounds that start at 0.1 ms
  end at 3.2768 s (C80_thresholds).
* Variants `HttpError` and `HTTPError` get the same label; a raw identifier `r#type` is shown as `r_type`; the valid metric and
  label names `_` and `_1` make the derive macros panic; fields `a` and `_a` of one struct clash (C82).
* The `decode` that `derive(LabelGroup)` writes binds the fields in the block of its own variables. A first fixed field called
  `index` whose type can be compared with numbers makes `debug_assert_eq!(index, 0)` compare the label and panic in debug
  builds; other clashes are compile errors (C92).
* `ProtoEncoder::flush_buf` goes back to `Init` before it writes, but cuts the buffer back only after a successful write. If the
  write fails, the lost family stays in the buffer: the next scrape by the same encoder shows its samples (and its help text,
  if there is no other one) in the first family that it writes (C93).
* `LabelId<L>` is not tied to a vector. Safe code can pass the id of a dense vector to a sparse one over the same label set; a group
  may then have two metrics, and a collection shows it twice. An id that another vector's interner gave out makes every later
  collection panic, not only the call it was passed to. The documentation warns of "strange behaviour" (C98).
