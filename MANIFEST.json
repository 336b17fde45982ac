{
 "claims": [
  {
   "property": "C01",
   "status": "proved",
   "theorems": [
    "Measured.C01_derived_enum"
   ],
   "note": "Derived enum labels: encode/decode inverse, in range, decode panics outside."
  },
  {
   "property": "C02",
   "status": "proved",
   "theorems": [
    "Measured.C02_derived_round_trip"
   ],
   "note": "Any list of fixed/dynamic fields, any lawful interners, both build modes, also after growth of interners."
  },
  {
   "property": "C03",
   "status": "proved",
   "theorems": [
    "Measured.C03_dense_bijection",
    "Measured.C03_dense_ids"
   ],
   "note": "C03_dense_ids is for fields of any kind, the rest for groups with only fixed fields."
  },
  {
   "property": "C04",
   "status": "proved",
   "theorems": [
    "Measured.C04_encode_none",
    "Measured.C04_overflow",
    "Measured.C04_untouched"
   ],
   "note": "C04_encode_none: exact characterisation of None, and no interning when a fixed value is unknown; C04_overflow and C04_untouched for any number of combinations."
  },
  {
   "property": "C05",
   "status": "partial",
   "theorems": [
    "Measured.C05_ids_collide_refuted",
    "Measured.C05_ids_injective_partial",
    "Measured.C05_collide_iff",
    "Measured.C05_lookup_panics",
    "Measured.C05_lookup_follows"
   ],
   "note": "Refuted in general: with more than usize::MAX combinations release builds give two groups the same id and debug builds panic (C05_ids_collide_refuted). Injectivity proved when the product fits or in debug builds (C05_ids_injective_partial). Exact for release builds: two groups collide if and only if there are more than 2^64 combinations (C05_collide_iff). Where encoding panics, the lookup in a vector panics and changes nothing (C05_lookup_panics); in a sparse vector a lookup ends as its encoding does (C05_lookup_follows). Missing: release builds with an overflowing product, where the claim is false."
  },
  {
   "property": "C06",
   "status": "proved",
   "theorems": [
    "Measured.C06_intern_stable"
   ],
   "note": "ThreadedRodeo modelled as an append-only intern table with a capacity."
  },
  {
   "property": "C07",
   "status": "proved",
   "theorems": [
    "Measured.C07_composed",
    "Measured.C07_composed_dense"
   ],
   "note": "Lawfulness is preserved by composition, hence for all nestings."
  },
  {
   "property": "C08",
   "status": "proved",
   "theorems": [
    "Measured.C08_fixed_sets"
   ],
   "note": "StaticLabelSet, IndexSet, RodeoReader, OrderedSet, Arc."
  },
  {
   "property": "C09",
   "status": "proved",
   "theorems": [
    "Measured.C09_refines_map"
   ],
   "note": "Refinement of an abstract map by every program of operations."
  },
  {
   "property": "C10",
   "status": "proved",
   "theorems": [
    "Measured.C10_labels_independent"
   ],
   "note": "All hash functions, including constant ones."
  },
  {
   "property": "C11",
   "status": "proved",
   "theorems": [
    "Measured.C11_dense_sparse_equivalent"
   ],
   "note": "The program must not contain remove_metric or init_all_dense, whose documented behaviour differs between the storages."
  },
  {
   "property": "C12",
   "status": "proved",
   "theorems": [
    "Measured.C12_remove"
   ],
   "note": ""
  },
  {
   "property": "C13",
   "status": "proved",
   "theorems": [
    "Measured.C13_cardinality"
   ],
   "note": ""
  },
  {
   "property": "C14",
   "status": "proved",
   "theorems": [
    "Measured.C14_init_all_dense"
   ],
   "note": ""
  },
  {
   "property": "C15",
   "status": "proved",
   "theorems": [
    "Measured.C15_collect_exactly_once"
   ],
   "note": ""
  },
  {
   "property": "C16",
   "status": "proved",
   "theorems": [
    "Measured.C16_dense_order",
    "Measured.C16_dense_collection_order"
   ],
   "note": "C16_dense_order: order of ids; C16_dense_collection_order: order of the collected samples."
  },
  {
   "property": "C17",
   "status": "proved",
   "theorems": [
    "Measured.C17_storage_choice"
   ],
   "note": ""
  },
  {
   "property": "C18",
   "status": "proved",
   "theorems": [
    "Measured.C18_ids_usable"
   ],
   "note": ""
  },
  {
   "property": "C19",
   "status": "proved",
   "theorems": [
    "Measured.C19_shard_selection",
    "Measured.C19_same_shard"
   ],
   "note": "Parallelism up to 2^55; default_shard_amount overflows from 2^62 on."
  },
  {
   "property": "C20",
   "status": "proved",
   "theorems": [
    "Measured.C20_final",
    "Measured.C20_after_join",
    "Measured.C20_read",
    "Measured.C20_reads_ordered",
    "Measured.C20_linear",
    "Measured.C20_linear_read"
   ],
   "note": "View-based relaxed memory: reads may be stale, plain stores may take their place before later ones. C20_after_join: who synchronised with all updaters reads the exact total; C20_read and C20_reads_ordered: every read is a growing prefix containing the own updates; C20_linear covers set."
  },
  {
   "property": "C21",
   "status": "proved",
   "theorems": [
    "Measured.C21_exactly_once",
    "Measured.C21_value",
    "Measured.C21_quiescent",
    "Measured.C21_read"
   ],
   "note": "Same memory; compare-exchange may fail without reason, loads may be stale. C21_exactly_once per thread, C21_quiescent for the value."
  },
  {
   "property": "C22",
   "status": "proved",
   "theorems": [
    "Measured.C22_snapshot",
    "Measured.C22_order",
    "Measured.C22_counts",
    "Measured.C22_no_panic"
   ],
   "note": "Instruction by instruction with the read-write lock; the load inside inc_by may return any value. Relaxed memory: C97. Each sample equals a sequential run over the completed observations, in an order that agrees with each thread and with real time (C22_order)."
  },
  {
   "property": "C23",
   "status": "proved",
   "theorems": [
    "Measured.C23_linearizable",
    "Measured.C23_contents",
    "Measured.C23_updates"
   ],
   "note": "Lock steps of get_metric and remove_metric, guards, updates under the guard; the table order is arbitrary. C23_linearizable also shows that the expect in get_metric cannot fail."
  },
  {
   "property": "C24",
   "status": "proved",
   "theorems": [
    "Measured.C24_pass",
    "Measured.C24_shards"
   ],
   "note": "Other threads may insert, update and remove between and (updates) within shards; an emitted state may be any between taking the lock and now."
  },
  {
   "property": "C25",
   "status": "proved",
   "theorems": [
    "Measured.C25_progress",
    "Measured.C25_finish",
    "Measured.C25_nested_blocks",
    "Measured.C25_nested_reachable",
    "Measured.C25_nested_present_blocks"
   ],
   "note": "C25_progress and C25_finish under a lock that refuses readers behind waiting writers; C25_nested_blocks shows the self-deadlock, C25_nested_present_blocks the one with a waiting writer."
  },
  {
   "property": "C26",
   "status": "partial",
   "theorems": [
    "Measured.C26_exact",
    "Measured.C26_not_above",
    "Measured.C26_nan_refuted",
    "Measured.C26_counts_partial"
   ],
   "note": "Proved end to end on the exported text for non-NaN observations and thresholds. Refuted for NaN observations, which land in the first bucket (C26_nan_refuted); C26_not_above and C26_exact state what is shown for all observations. Missing: NaN, and 2^63 or more observations, where the claim is false."
  },
  {
   "property": "C27",
   "status": "partial",
   "theorems": [
    "Measured.C27_iff",
    "Measured.C27_with_buckets_empty_refuted",
    "Measured.C27_with_buckets_partial"
   ],
   "note": "Refuted for N = 0 (C27_with_buckets_empty_refuted: with_buckets([]) panics in every build); proved for every N >= 1. C27_iff: returned exactly when not empty and strictly increasing. Missing: N = 0, where the claim is false."
  },
  {
   "property": "C28",
   "status": "proved",
   "theorems": [
    "Measured.C28_linear",
    "Measured.C28_exponential",
    "Measured.C28_first_bucket"
   ],
   "note": "Linear: N up to 2^64. Exponential: N up to 2^31 because of `i as i32`; powi as the compiler-rt repeated squaring loop."
  },
  {
   "property": "C29",
   "status": "partial",
   "theorems": [
    "Measured.C29_shape",
    "Measured.C29_counts_partial",
    "Measured.C29_counts_refuted",
    "Measured.C29_exact"
   ],
   "note": "Shape proved for all states (C29_shape). Non-decreasing counts refuted from a total of 2^63 on (C29_counts_refuted), proved below (C29_counts_partial). Exact for all 64 bit totals: the running totals are shown as signed numbers, which are non-decreasing if and only if the total is below 2^63 or no count is (C29_exact). Missing: totals of 2^63 and more, where the claim is false."
  },
  {
   "property": "C30",
   "status": "proved",
   "theorems": [
    "Measured.C30_one_observation",
    "Measured.C30_vec_timer",
    "Measured.C30_timer"
   ],
   "note": "Labelled and unlabelled timers, drop glue included; leaking a timer with mem::forget is outside."
  },
  {
   "property": "C31",
   "status": "proved",
   "theorems": [
    "Measured.C31_escape_lossless",
    "Measured.C31_escape_injective"
   ],
   "note": "All byte strings; injectivity follows from the reader."
  },
  {
   "property": "C32",
   "status": "proved",
   "theorems": [
    "Measured.C32_sample_reads_back",
    "Measured.C32_labels_meaning"
   ],
   "note": "Relative to the stated contract of the float formatter (FloatText: ASCII, not an integer, reads back)."
  },
  {
   "property": "C33",
   "status": "partial",
   "theorems": [
    "Measured.C33_help_backslash_refuted",
    "Measured.C33_exposition_partial",
    "Measured.C33_exact",
    "Measured.C33_help_iff"
   ],
   "note": "Refuted for help texts with a backslash (C33_help_backslash_refuted). Proved for help without newline, backslash and leading blank, and for counts below 2^63. Exact for all help texts without line feed and all 64 bit counts: C33_exact says what is read back and where the blank lines are, or that the text is refused, C33_help_iff which help texts are read back unchanged. Missing: other help texts and counts, where the claim is false."
  },
  {
   "property": "C34",
   "status": "partial",
   "theorems": [
    "Measured.C34_exact",
    "Measured.C34_inject",
    "Measured.C34_forge",
    "Measured.C34_help_lines",
    "Measured.C34_help_refuted",
    "Measured.C34_help_partial"
   ],
   "note": "Refuted (C34_help_refuted); C34_help_lines counts the lines exactly; C34_exact says what is written for all help texts: what follows a line feed is in the exposition as it is; C34_inject and C34_forge: so a help text can add any lines and any families. Proved for newline-free help. Missing: help with newlines, where the claim is false."
  },
  {
   "property": "C35",
   "status": "partial",
   "theorems": [
    "Measured.C35_counter_value_refuted",
    "Measured.C35_counter_value_partial",
    "Measured.C35_exact"
   ],
   "note": "Refuted for every count from 2^63 on (C35_counter_value_refuted), proved below. Exact for all 64 bit counts of all metrics: counts are shown as signed numbers (C35_exact). Missing: counts of 2^63 and more, where the claim is false."
  },
  {
   "property": "C36",
   "status": "proved",
   "theorems": [
    "Measured.C36_reuse_after_finish",
    "Measured.C36_reuse_after_flush"
   ],
   "note": "finish and flush, also after calls that panicked."
  },
  {
   "property": "C37",
   "status": "partial",
   "theorems": [
    "Measured.C37_lost_bytes_refuted",
    "Measured.C37_sticky_partial",
    "Measured.C37_unlabelled_partial",
    "Measured.C37_only_labels",
    "Measured.C37_lost_meaning"
   ],
   "note": "Refuted: a writer failing once inside a label loses bytes although Ok is returned (C37_lost_bytes_refuted). Proved for writers that keep failing once they failed, and for all writers when nothing labelled is written. Exact for all writers: only bytes between the braces of samples can be missing (C37_only_labels). Missing: recovering writers and labels, where the claim is false."
  },
  {
   "property": "C38",
   "status": "partial",
   "theorems": [
    "Measured.C38_from_str",
    "Measured.C38_try_from_str_refuted",
    "Measured.C38_try_from_str_exact",
    "Measured.C38_try_from_str_partial"
   ],
   "note": "from_str is exact. try_from_str is refuted: it accepts `-` (C38_try_from_str_refuted); C38_try_from_str_exact gives the accepted language, C38_try_from_str_partial the claim for strings without `-`."
  },
  {
   "property": "C39",
   "status": "proved",
   "theorems": [
    "Measured.C39_label_name"
   ],
   "note": ""
  },
  {
   "property": "C40",
   "status": "proved",
   "theorems": [
    "Measured.C40_composition",
    "Measured.C40_length",
    "Measured.C40_valid"
   ],
   "note": ""
  },
  {
   "property": "C41",
   "status": "partial",
   "theorems": [
    "Measured.C41_absent_iff",
    "Measured.C41_collect",
    "Measured.C41_names",
    "Measured.C41_first_error",
    "Measured.C41_absent_refuted",
    "Measured.C41_absent_partial",
    "Measured.C41_bad_namespace_panics",
    "Measured.C41_text_partial"
   ],
   "note": "Order, names and the first error proved for every group tree and every encoder. Refuted for an absent Option metric with a doc comment, which still writes its HELP (C41_absent_refuted); an invalid namespace attribute panics at every scrape (C41_bad_namespace_panics). C41_absent_iff: a field makes no calls exactly when it is absent and undocumented. Missing: absent documented fields, where the claim is false."
  },
  {
   "property": "C42",
   "status": "proved",
   "theorems": [
    "Measured.Proto.C42_varint_round_trip",
    "Measured.Proto.C42_varint_length",
    "Measured.Proto.C42_varint_prefix_free",
    "Measured.Proto.C42_key"
   ],
   "note": ""
  },
  {
   "property": "C43",
   "status": "partial",
   "theorems": [
    "Measured.C43_label_pair",
    "Measured.C43_sample",
    "Measured.C43_family_partial",
    "Measured.C43_stream_partial",
    "Measured.C43_unreserved_refuted",
    "Measured.C43_exact"
   ],
   "note": "Label pairs, samples and families: announced lengths are exact in both builds and messages read back; any call sequence that starts with write_help or write_type. Refuted for a sample as the first call on a new encoder, where nothing is reserved and the length overwrites message bytes (C43_unreserved_refuted); C43_exact: then exactly the first ten bytes of the first message are lost. Missing: that case, where the claim is false."
  },
  {
   "property": "C44",
   "status": "partial",
   "theorems": [
    "Measured.C44_partial",
    "Measured.C44_leak_refuted",
    "Measured.C44_reuse_refuted",
    "Measured.C44_blocks",
    "Measured.C44_exact"
   ],
   "note": "Proved for lists of families where no family with help and without samples precedes one without help. Refuted otherwise (C44_leak_refuted: samples appear under the name of the preceding family) and for reuse of the encoder after such a family (C44_reuse_refuted). C44_exact says what any sequence of calls and scrapes decodes to, these cases included. Missing: those lists, where the claim is false."
  },
  {
   "property": "C45",
   "status": "partial",
   "theorems": [
    "Measured.C45_exact_iff",
    "Measured.C45_partial",
    "Measured.C45_gauge_partial",
    "Measured.C45_refuted"
   ],
   "note": "Refuted at 2^53+1; C45_exact_iff characterises the exact counts; proved up to 2^53, also for gauges. Missing: the other counts, where the claim is false."
  },
  {
   "property": "C46",
   "status": "partial",
   "theorems": [
    "Measured.C46_exact",
    "Measured.C46_usage_partial",
    "Measured.C46_self_partial",
    "Measured.C46_gone",
    "Measured.C46_start_refuted",
    "Measured.C46_wide_partial",
    "Measured.C46_wide_panics",
    "Measured.C46_wide_start"
   ],
   "note": "The operating system is an arbitrary table of processes. Fds, memory, cpu and threads of the given pid proved through the text reader. Refuted for the start time, which is that of the collecting process (C46_start_refuted); C46_self_partial covers the own pid, C46_exact says what is shown for every pid. C46_wide_partial, C46_wide_panics and C46_wide_start are for quantities of any size: shown as their 64 bit two's complement unless a number cannot be computed (overflow in debug builds, a quotient by zero), where the code panics. Missing: the start time of another process, where the claim is false."
  },
  {
   "property": "C47",
   "status": "proved",
   "theorems": [
    "Measured.C47_once",
    "Measured.C47_same",
    "Measured.C47_updates",
    "Measured.C47_emit",
    "Measured.C47_skip",
    "Measured.C47_progress"
   ],
   "note": "OnceLock with stale loads, waiting initialisers and panicking M::default; every initialisation makes a distinct state. C47_same, C47_once, C47_updates; C47_emit and C47_skip for collections."
  },
  {
   "property": "C48",
   "status": "proved",
   "theorems": [
    "Measured.C48_calls",
    "Measured.C48_labels",
    "Measured.C48_text",
    "Measured.C48_buckets",
    "Measured.C48_cumulative",
    "Measured.C48_bounds",
    "Measured.C48_panics",
    "Measured.C48_buckets_wrap"
   ],
   "note": "Runtime metrics are arbitrary functions with counts below 2^63. C48_calls for every encoder, C48_text through the reader. Without the bound on counts: C48_panics says when exactly a scrape panics, C48_buckets_wrap what the buckets then count in release builds."
  },
  {
   "property": "C49",
   "status": "proved",
   "theorems": [
    "Measured.C49_utf8"
   ],
   "note": "Floats formatted in ASCII is the only assumption on ryu."
  },
  {
   "property": "C50",
   "status": "proved",
   "theorems": [
    "Measured.C50_lines",
    "Measured.C50_resume",
    "Measured.C50_exact",
    "Measured.C50_accepted"
   ],
   "note": "Names valid, help plain, counts below 2^63 (the cases where C33 is not refuted). C50_exact and C50_accepted: all help texts and 64 bit counts, with what a reader finds for them."
  },
  {
   "property": "C51",
   "status": "proved",
   "theorems": [
    "Measured.C51_accurate",
    "Measured.C51_monotone",
    "Measured.C51_strict",
    "Measured.C51_gap"
   ],
   "note": "Model of as_secs_f64 as (secs as f64) + (nanos as f64) / 1e9 with correctly rounded operations."
  },
  {
   "property": "C52",
   "status": "partial",
   "theorems": [
    "Measured.C52_exact",
    "Measured.C52_typed_partial",
    "Measured.C52_tokio_refuted",
    "Measured.C52_process_refuted"
   ],
   "note": "Refuted for the tokio and process collectors, which write no TYPE (C52_tokio_refuted, C52_process_refuted). Proved for metrics, vectors and derived groups. C52_exact: for any calls, the typed families are exactly those of the TYPE calls. Missing: hand written collectors, where the claim is false."
  },
  {
   "property": "C53",
   "status": "proved",
   "theorems": [
    "Measured.C53_counter_release",
    "Measured.C53_counter_debug",
    "Measured.C53_counter_exact",
    "Measured.C53_gauge_release",
    "Measured.C53_gauge_debug",
    "Measured.C53_gauge_wrapped",
    "Measured.C53_float",
    "Measured.C53_histogram",
    "Measured.C53_observe_mut"
   ],
   "note": "counter_release/debug/exact, gauge_release/debug, float and histogram (C53_observe_mut: the exclusive observe does the same as the shared one); both kinds of references are modelled by separate functions."
  },
  {
   "property": "C54",
   "status": "proved",
   "theorems": [
    "Measured.C54_counter",
    "Measured.C54_gauge",
    "Measured.C54_float",
    "Measured.C54_histogram"
   ],
   "note": "For any GroupSet that satisfies the laws proved in C02, C07 and C08; names valid, counts below 2^63 (the cases where C33 and C35 are not refuted), histogram bounds and observations not NaN."
  },
  {
   "property": "C55",
   "status": "proved",
   "theorems": [
    "Measured.C55_histogram"
   ],
   "note": "On the model of observe, with the timers of C30."
  },
  {
   "property": "C56",
   "status": "partial",
   "theorems": [
    "Measured.C56_histogram_iff",
    "Measured.C56_family_iff",
    "Measured.C56_vector",
    "Measured.C56_histogram_partial",
    "Measured.C56_no_labels",
    "Measured.C56_derived",
    "Measured.C56_composed_partial",
    "Measured.C56_counter",
    "Measured.C56_gauge",
    "Measured.C56_float",
    "Measured.C56_histogram_used_partial",
    "Measured.C56_inf_refuted",
    "Measured.C56_linear_refuted"
   ],
   "note": "Refuted: with_buckets accepts +Inf (C56_inf_refuted), linear_buckets can produce equal bounds (C56_linear_refuted). Proved for counters, gauges and, if the bounds are strictly increasing and below +Inf and no label is called le, histograms. C56_no_labels, C56_derived and C56_composed_partial show that label groups meet the hypothesis. C56_histogram_iff: the series of one histogram differ exactly if its bounds and +Inf do; C56_family_iff: those of a family exactly if moreover no two label groups are written alike. Missing: the remaining cases, where the claim is false."
  },
  {
   "property": "C57",
   "status": "partial",
   "theorems": [
    "Measured.C57_iff",
    "Measured.C57_names_partial",
    "Measured.C57_counter",
    "Measured.C57_gauge",
    "Measured.C57_float",
    "Measured.C57_histogram_partial",
    "Measured.C57_composed_refuted",
    "Measured.C57_le_refuted"
   ],
   "note": "Refuted for composed groups with a common label name (C57_composed_refuted) and histograms with a label named le (C57_le_refuted). Proved for groups with distinct names without le; C57_iff: these are exactly the groups for which it holds. Missing: the remaining cases, where the claim is false."
  },
  {
   "property": "C58",
   "status": "proved",
   "theorems": [
    "Measured.C58_metric_attrs",
    "Measured.C58_order",
    "Measured.C58_label_attrs",
    "Measured.C58_enum_attrs"
   ],
   "note": "Rust syntax (syn) is not modelled: an attribute is the list of its arguments."
  },
  {
   "property": "C59",
   "status": "proved",
   "theorems": [
    "Measured.C59_compiles",
    "Measured.C59_items"
   ],
   "note": "shout (heck) and the check that a field type implements the trait are parameters; C41 gives the calls of the items."
  },
  {
   "property": "C60",
   "status": "proved",
   "theorems": [
    "Measured.C60_ctor"
   ],
   "note": "Attributes as C58 accepts them."
  },
  {
   "property": "C61",
   "status": "partial",
   "theorems": [
    "Measured.C61_refuted",
    "Measured.C61_labels_partial",
    "Measured.C61_discriminants",
    "Measured.C61_number_refuted",
    "Measured.C61_shown_alike_iff"
   ],
   "note": "Refuted: two variants may be renamed alike (C61_refuted). C61_discriminants: the numbers are those of the language. C61_labels_partial: that, or two names that heck converts alike, is the only way for equal label values; but a discriminant and a rename can be shown alike (C61_number_refuted). C61_shown_alike_iff: when two values are shown alike; C82: when two names are converted alike. Missing: these cases, where the claim is false."
  },
  {
   "property": "C62",
   "status": "partial",
   "theorems": [
    "Measured.C62_refuted",
    "Measured.C62_names_partial",
    "Measured.C62_nested_partial",
    "Measured.C62_prefix_partial"
   ],
   "note": "Refuted: a field in a namespace and one under the full name (C62_refuted). C62_names_partial for structs of metric fields only; C62_nested_partial says for any struct exactly when no family name comes twice; C62_prefix_partial gives a condition on the namespaces and flattened groups that is enough. Missing: the claim without such a condition, which is false."
  },
  {
   "property": "C63",
   "status": "partial",
   "theorems": [
    "Measured.C63_agree_partial",
    "Measured.C63_refuted",
    "Measured.C63_iff"
   ],
   "note": "Refuted for counts of 2^63 and more, negative in text (C63_refuted). C63_agree_partial under the conditions of C33 and C44; C63_iff: exactly when they agree, for help texts without line feed. Missing: other help texts, larger counts and pending help texts, where the claim is false."
  },
  {
   "property": "C64",
   "status": "proved",
   "theorems": [
    "Measured.C64_counter",
    "Measured.C64_unsynced",
    "Measured.C64_histogram",
    "Measured.C64_sum"
   ],
   "note": "On the concurrent models of C20 and C22. C64_unsynced: without an order between the scrapes a relaxed read may be stale, so a second scrape may show less."
  },
  {
   "property": "C65",
   "status": "proved",
   "theorems": [
    "Measured.C65_histogram_progress",
    "Measured.C65_histogram_finish",
    "Measured.C65_float_progress",
    "Measured.C65_float_finish"
   ],
   "note": "Under a lock that refuses readers behind waiting writers, loads that return the latest value and compare-exchanges that fail only for a reason; vectors are C25."
  },
  {
   "property": "C66",
   "status": "proved",
   "theorems": [
    "Measured.Conc.C66_agree",
    "Measured.Conc.C66_decode",
    "Measured.Conc.C66_no_panic",
    "Measured.Conc.C66_alone",
    "Measured.Conc.C66_alone_panic",
    "Measured.Conc.C66_alone_decode",
    "Measured.Conc.C66_shared"
   ],
   "note": "One call on an interner is one step (lasso is code of another crate); an id passed to decode comes from an encode of the same set (C18). C66_shared: any number of label group sets on the same interners."
  },
  {
   "property": "C67",
   "status": "proved",
   "theorems": [
    "Measured.C67_sparse",
    "Measured.C67_dense",
    "Measured.C67_counters",
    "Measured.C67_counters_dense"
   ],
   "note": "For dense vectors the second thread must have synchronised with the first (or be it): C67_dense; for sparse ones the locks see to that."
  },
  {
   "property": "C68",
   "status": "proved",
   "theorems": [
    "Measured.C68_counter",
    "Measured.C68_gauge",
    "Measured.C68_float",
    "Measured.C68_histogram",
    "Measured.C68_counter_dense",
    "Measured.C68_gauge_dense",
    "Measured.C68_float_dense",
    "Measured.C68_histogram_dense",
    "Measured.C68_quiet",
    "Measured.C68_bounds"
   ],
   "note": "C68_counter, C68_gauge, C68_float and C68_histogram for sparse vectors, C68_*_dense for dense ones, where *at some moment* becomes *the first so many calls, with all those the scraping thread knew of*, as nothing orders relaxed updates between threads. C68_quiet: without changes meanwhile the text is the vector. C68_bounds: a counter is between its values at the start and at the end."
  },
  {
   "property": "C69",
   "status": "partial",
   "theorems": [
    "Measured.C69_linear_panics",
    "Measured.C69_exponential_panics",
    "Measured.C69_nan_panics",
    "Measured.C69_linear",
    "Measured.C69_exponential_partial",
    "Measured.C69_overflow_refuted",
    "Measured.C69_subnormal_refuted",
    "Measured.C69_exponential_exact"
   ],
   "note": "Panics: C69_linear_panics, C69_exponential_panics, C69_nan_panics. C69_linear is the whole claim for linear bounds. For exponential ones it is false where factor^i overflows (C69_overflow_refuted) and below the normal numbers (C69_subnormal_refuted); C69_exponential_partial has the claim for finite bounds from a normal start; C69_exponential_exact says what the bounds are for all starts and factors. Missing: the other starts and bounds, for which it is false."
  },
  {
   "property": "C70",
   "status": "proved",
   "theorems": [
    "Measured.C70_histogram",
    "Measured.C70_text",
    "Measured.C70_float",
    "Measured.C70_float_set"
   ],
   "note": "C70_histogram for samples, C70_text for the line in the output, C70_float for gauges that are only changed, C70_float_set for gauges that are also set (the changes after the last set count)."
  },
  {
   "property": "C71",
   "status": "proved",
   "theorems": [
    "Measured.C71_fields",
    "Measured.C71_group"
   ],
   "note": "C71_group; what each field must show is the inductive definition FieldInUse (Spec/Registry), which has sparse vectors both by key and, together with their interners, by label group (C75), and vectors of histograms both as one step per observation and step by step (C84, C86: bucket, sum and sample under the lock of each histogram). C71_fields asks only for a run of each field: if several vectors share interners, C75_shared gives these."
  },
  {
   "property": "C72",
   "status": "proved",
   "theorems": [
    "Measured.C72_fields",
    "Measured.C72_group"
   ],
   "note": "C72_group and C72_fields, with the same definition; a field with help may be followed by one without if it is sure to have an entry (C44)."
  },
  {
   "property": "C73",
   "status": "partial",
   "theorems": [
    "Measured.C73_process_partial",
    "Measured.C73_type_refuted",
    "Measured.C73_tokio_partial",
    "Measured.C73_names_refuted"
   ],
   "note": "C73_process_partial, C73_tokio_partial say exactly what is decoded. Missing, because false: types (no collector writes one, so gauges read as counters without a value, C73_type_refuted) and the names of samples (the protobuf encoder ignores them, C73_names_refuted)."
  },
  {
   "property": "C74",
   "status": "partial",
   "theorems": [
    "Measured.C74_iff",
    "Measured.C74_distinct_partial",
    "Measured.C74_names",
    "Measured.C74_same_name_refuted"
   ],
   "note": "C74_distinct_partial: distinct runtime names and bucket ends that differ by one part in 2^49. With two runtimes of one name every scrape has duplicates (C74_same_name_refuted); C74_iff: with named runtimes whose bucket ends differ, exactly then. C74_names: no condition."
  },
  {
   "property": "C75",
   "status": "proved",
   "theorems": [
    "Measured.Conc.C75_keys",
    "Measured.Conc.C75_no_panic",
    "Measured.Conc.C75_counter",
    "Measured.Conc.C75_gauge",
    "Measured.Conc.C75_float",
    "Measured.Conc.C75_histogram",
    "Measured.Conc.C75_series",
    "Measured.Conc.C75_series_histogram",
    "Measured.Conc.C75_shared"
   ],
   "note": "C75_counter, C75_gauge, C75_float, C75_histogram; C75_keys: every key decodes; C75_no_panic; C75_series and C75_series_histogram: no series twice; C75_shared: with many vectors on the same interners, what happens on one of them is still such a run."
  },
  {
   "property": "C76",
   "status": "proved",
   "theorems": [
    "Measured.C76_fields",
    "Measured.C76_group",
    "Measured.C76_fields_messages",
    "Measured.C76_messages"
   ],
   "note": "C76_group (text) and C76_messages (protobuf); C76_fields and C76_fields_messages ask only for a run of each field (shared interners, C75_shared). Vectors of histograms are covered step by step too (hv_twice, hd_twice in Proof/HistTwice). Without synchronisation between the two scrapes it is false for relaxed reads: C64_unsynced."
  },
  {
   "property": "C77",
   "status": "proved",
   "theorems": [
    "Measured.C77_label_group",
    "Measured.C77_metric_group",
    "Measured.C77_enum"
   ],
   "note": "C77_label_group, C77_metric_group, C77_enum: acceptance is an equivalence. Parsing of Rust by syn and the checks of rustc on the generated code are outside the model (C59 has those of the generated constants); that named fields have an identifier is what syn guarantees."
  },
  {
   "property": "C78",
   "status": "proved",
   "theorems": [
    "Measured.C78_agree"
   ],
   "note": "C78_agree, for all number formatters that read back (FloatText)."
  },
  {
   "property": "C79",
   "status": "partial",
   "theorems": [
    "Measured.C79_scrape",
    "Measured.C79_add",
    "Measured.C79_added",
    "Measured.C79_progress",
    "Measured.C79_failed_add_refuted",
    "Measured.C79_exact",
    "Measured.C79_no_lock_panic_partial",
    "Measured.C79_text"
   ],
   "note": "The last part is false: add_current panics while it holds the write guard, which poisons the lock, and every later scrape and addition panics (C79_failed_add_refuted). C79_exact: a call panics at the lock if and only if that has happened before. C79_no_lock_panic_partial: without failed add_current no call does. Missing: the last part, where the claim is false."
  },
  {
   "property": "C80",
   "status": "proved",
   "theorems": [
    "Measured.Server.C80_thresholds",
    "Measured.Server.C80_labels",
    "Measured.Server.C80_no_panic",
    "Measured.Server.C80_refused",
    "Measured.Server.C80_self",
    "Measured.Server.C80_scrape",
    "Measured.Server.C80_series",
    "Measured.Server.C80_serves",
    "Measured.Server.C80_sequential"
   ],
   "note": "Every request a thread; the crate lasso by contract."
  },
  {
   "property": "C81",
   "status": "proved",
   "theorems": [
    "Measured.C81_contract",
    "Measured.C81_shortest",
    "Measured.C81_texts",
    "Measured.C81_length",
    "Measured.C81_injective",
    "Measured.C81_reader",
    "Measured.C81_sample"
   ],
   "note": "For the contract of ryu (shortest, then nearest), not its algorithm."
  },
  {
   "property": "C82",
   "status": "proved",
   "theorems": [
    "Measured.C82_words",
    "Measured.C82_style",
    "Measured.C82_label",
    "Measured.C82_same",
    "Measured.C82_same_camel",
    "Measured.C82_again",
    "Measured.C82_usual",
    "Measured.C82_variants",
    "Measured.C82_const",
    "Measured.C82_const_same",
    "Measured.C82_group",
    "Measured.C82_raw"
   ],
   "note": "For ASCII identifiers; heck 0.5.0 from its published source."
  },
  {
   "property": "C83",
   "status": "proved",
   "theorems": [
    "Measured.Server.C83_routes",
    "Measured.Server.C83_one_route",
    "Measured.Server.C83_label",
    "Measured.Server.C83_paths",
    "Measured.Server.C83_answers",
    "Measured.Server.C83_status",
    "Measured.Server.C83_never_refused",
    "Measured.Server.C83_bounded",
    "Measured.Server.C83_sequential",
    "Measured.Server.C83_all_answers"
   ],
   "note": "For every search of axum among the routes that has the laws Finds."
  },
  {
   "property": "C84",
   "status": "proved",
   "theorems": [
    "Measured.C84_linear",
    "Measured.C84_sample",
    "Measured.C84_removed",
    "Measured.C84_no_panic",
    "Measured.C84_pass",
    "Measured.C84_text"
   ],
   "note": "C84_linear: the run in which observations are single steps; C84_sample, C84_removed, C84_no_panic; C84_pass and C84_text for a collection."
  },
  {
   "property": "C85",
   "status": "proved",
   "theorems": [
    "Measured.C85_progress",
    "Measured.C85_finish"
   ],
   "note": "C85_progress and C85_finish. Fair scheduling is not needed; compare-exchanges fail only for a reason and loads return the latest value, as in C65. A thread that keeps a guard can block itself: C25_nested_blocks."
  },
  {
   "property": "C86",
   "status": "proved",
   "theorems": [
    "Measured.C86_sample",
    "Measured.C86_no_panic",
    "Measured.C86_pass",
    "Measured.C86_text",
    "Measured.C86_progress",
    "Measured.C86_finish"
   ],
   "note": "C86_sample, C86_no_panic (lookups can panic only if the Default of the metric type does), C86_pass and C86_text for what is shown; C86_progress and C86_finish. Needs no rule about guards, other than C85: a dense vector has no lock of its own."
  },
  {
   "property": "C87",
   "status": "proved",
   "theorems": [
    "Measured.Server.C87_exact",
    "Measured.Server.C87_answered",
    "Measured.Server.C87_ahead",
    "Measured.Server.C87_open",
    "Measured.Server.C87_later",
    "Measured.Server.C87_more"
   ],
   "note": "C87_exact for the numbers; C87_answered (in the order of the handler), C87_ahead, C87_more (the run) and C87_open for sums in one text; C87_later for two. Requests whose label is refused by a full interner count as not answered."
  },
  {
   "property": "C88",
   "status": "proved",
   "theorems": [
    "Measured.Server.C88_alone",
    "Measured.Server.C88_text",
    "Measured.Server.C88_response",
    "Measured.Server.C88_answered",
    "Measured.Server.C88_later",
    "Measured.Server.C88_no_crash"
   ],
   "note": "C88_alone: the mutex; C88_text and C88_response: a text; C88_answered, C88_later, C88_no_crash. C89 has that exports come to their end."
  },
  {
   "property": "C89",
   "status": "proved",
   "theorems": [
    "Measured.Server.C89_progress",
    "Measured.Server.C89_bounded",
    "Measured.Server.C89_finish",
    "Measured.Server.C89_rest",
    "Measured.Server.C89_outcome",
    "Measured.Server.C89_export",
    "Measured.Server.C89_await"
   ],
   "note": "C89_progress, C89_bounded and C89_finish; C89_rest, C89_outcome and C89_export for the state they come to; C89_await. What the service inside does is the environment; whether a waiting request is the next to get the mutex is left open, so one request may wait as long as others come."
  },
  {
   "property": "C90",
   "status": "proved",
   "theorems": [
    "Measured.Server.C90_refine",
    "Measured.Server.C90_alone",
    "Measured.Server.C90_response",
    "Measured.Server.C90_answered",
    "Measured.Server.C90_later",
    "Measured.Server.C90_no_crash",
    "Measured.Server.C90_no_panic"
   ],
   "note": "C90_refine: the refinement; C90_response, C90_answered, C90_later, C90_alone and C90_no_crash carry over C87 and C88; C90_no_panic: the histograms."
  },
  {
   "property": "C91",
   "status": "proved",
   "theorems": [
    "Measured.Server.C91_progress",
    "Measured.Server.C91_bounded",
    "Measured.Server.C91_finish",
    "Measured.Server.C91_rest",
    "Measured.Server.C91_outcome",
    "Measured.Server.C91_export"
   ],
   "note": "C91_progress, C91_bounded and C91_finish; C91_rest, C91_outcome and C91_export for the state they come to. Loads of the sum return its current value here and compare-exchanges fail only if the sum has changed (C90 needs neither); with spurious failures for ever no bound holds."
  },
  {
   "property": "C92",
   "status": "partial",
   "theorems": [
    "Measured.Names.C92_compiles",
    "Measured.Names.C92_plain",
    "Measured.Names.C92_round_trip_partial",
    "Measured.Names.C92_exact",
    "Measured.Names.C92_same_partial",
    "Measured.Names.C92_index_refuted"
   ],
   "note": "False in one case: in debug builds, with a first fixed field called index whose type can be compared with numbers, decode panics (C92_index_refuted). C92_compiles: exactly which names compile; C92_plain; C92_round_trip_partial and C92_same_partial: all other names, and all names in release builds; C92_exact: what happens in that case. Missing: that one case, where the statement fails. Field types that can be divided by a usize are left out."
  },
  {
   "property": "C93",
   "status": "partial",
   "theorems": [
    "Measured.C93_ok",
    "Measured.C93_error",
    "Measured.C93_working",
    "Measured.C93_no_panic",
    "Measured.C93_reuse_partial",
    "Measured.C93_exact",
    "Measured.C93_attempts",
    "Measured.C93_reuse_refuted"
   ],
   "note": "C93_ok, C93_error, C93_working: for all calls; C93_no_panic: all scrapes kept going after errors. The last part is false: after a failed write the block is still in the buffer, and its samples appear under the name of the next family (C93_reuse_refuted). C93_exact: which block is lost in a failing scrape and what the following scrapes show. C93_attempts: the same for any scrapes of which any may fail. C93_reuse_partial: as long as no scrape fails. Missing: the last part after a failure, where the claim is false. `flush` of the writer itself: C95."
  },
  {
   "property": "C94",
   "status": "proved",
   "theorems": [
    "Measured.C94_error",
    "Measured.C94_panic_iff",
    "Measured.C94_no_panic",
    "Measured.C94_working",
    "Measured.C94_reuse",
    "Measured.C94_unflushed"
   ],
   "note": "Label names match the documented regular expression. `flush` of the writer itself: C95."
  },
  {
   "property": "C95",
   "status": "proved",
   "theorems": [
    "Measured.C95_text_ok",
    "Measured.C95_text_error",
    "Measured.C95_text_working",
    "Measured.C95_text_state",
    "Measured.C95_proto_ok",
    "Measured.C95_proto_error",
    "Measured.C95_proto_working"
   ],
   "note": "Label names match the documented regular expression."
  },
  {
   "property": "C96",
   "status": "proved",
   "theorems": [
    "Measured.C96_collection",
    "Measured.C96_session",
    "Measured.C96_results",
    "Measured.C96_reads_back"
   ],
   "note": "BytesMut by contract: `put` does not fail. Overflow of counts: `Overflows` (Spec/TextFail). C96_reads_back for the families of C33."
  },
  {
   "property": "C97",
   "status": "proved",
   "theorems": [
    "Measured.Conc.C97_refines",
    "Measured.Conc.C97_snapshot",
    "Measured.Conc.C97_counts",
    "Measured.Conc.C97_later",
    "Measured.Conc.C97_no_panic",
    "Measured.Conc.C97_no_race"
   ],
   "note": "View-based memory for all cells of a histogram; threads got their reference to it from its creator, so that the initial values are known. C97_refines: every run is a run of the model of C22. C97_no_race: the sampler knows all modifications, and none can follow before it lets go."
  },
  {
   "property": "C98",
   "status": "proved",
   "theorems": [
    "Measured.C98_dense",
    "Measured.C98_sparse_hashed",
    "Measured.C98_sparse_twice",
    "Measured.C98_sparse_unknown"
   ],
   "note": "Any id, key and number free. C98_sparse_twice asks for different shards: within one shard hashbrown may or may not find the entry, depending on 7 bits of the hashes. One thread at a time."
  },
  {
   "property": "C99",
   "status": "proved",
   "theorems": [
    "Measured.Conc.C99_events",
    "Measured.Conc.C99_updates",
    "Measured.Conc.C99_no_panic",
    "Measured.Conc.C99_no_race",
    "Measured.Conc.C99_released",
    "Measured.Conc.C99_synced",
    "Measured.Conc.C99_own",
    "Measured.Conc.C99_again",
    "Measured.Conc.C99_forward",
    "Measured.Conc.C99_weak_lock_stale"
   ],
   "note": "One shard (shards share nothing), any keys and threads; a thread has one guard at a time. C99_weak_lock_stale: with a lock that promises no more than locks do in general, a collection may miss updates whose guards were dropped long before; parking_lot rules that out."
  }
 ]
}