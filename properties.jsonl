{"id": "C01", "title": "Derived enum labels are numbered one-to-one", "statement": "For an enum deriving FixedCardinalityLabel, encode() maps the variants one-to-one onto 0..cardinality(), decode() is its exact inverse in both directions, and decode() panics for every value outside that range.", "quantifier": "for every list of distinct variants and every usize argument", "why_tests_cant": "Tests check a handful of three-variant enums; the claim is about every enum the derive can be applied to.", "anchors": ["derive/src/value/to_tokens.rs: FixedCardinalityLabel::to_tokens", "core/src/label/value.rs: FixedCardinalityLabel, StaticLabelSet"]}
{"id": "C02", "title": "A derived label group round-trips through its id", "statement": "For a set produced by derive(LabelGroup) whose fixed-field cardinalities multiply to at most usize::MAX, whenever encode(g) returns Some(id) then decode(id) returns exactly g (every field, declared order), without panicking in debug or release builds.", "quantifier": "for all field lists (any mix of fixed and dynamic fields), all contents of the field sets, all groups, both build modes", "why_tests_cant": "The mixed-radix arithmetic is generated per struct; tests cover one two-field struct.", "anchors": ["derive/src/label_group/to_tokens.rs: LabelGroup::to_tokens (encode, decode)", "core/src/label/group.rs: LabelGroupSet"]}
{"id": "C03", "title": "Derived dense ids are a bijection with 0..cardinality()", "statement": "For a derived group with only fixed fields, if cardinality() = Some(c) then every encodable group gets an id below c, and every i < c is the id of exactly one group; so cardinality() is exactly the number of distinct groups and decode_dense never panics on 0..c. For any derived group, fields of any kind, a dense id is below cardinality() and belongs to one group only.", "quantifier": "for all lists of fields and all lawful field sets, both build modes", "why_tests_cant": "It is a counting statement over all label combinations of all struct shapes.", "anchors": ["derive/src/label_group/to_tokens.rs: cardinality, encode_dense, decode_dense, encode, decode"]}
{"id": "C04", "title": "Encoding fails exactly for values outside the sets, and a failing fixed field leaves interners untouched", "statement": "encode(g) of a derived group returns None exactly when some fixed field's value is not in its set or some dynamic set refuses the value; if a fixed field's value is not in its set then no dynamic label set has been modified. (Where the cardinalities multiply to more than usize::MAX, a build with overflow checks may panic instead of returning.)", "quantifier": "for all field lists, all set states, all groups", "why_tests_cant": "Tests use one missing label; evaluation-order side effects for all field orders are not exercised.", "anchors": ["derive/src/label_group/to_tokens.rs: encode (sorted_fields, fixed before dynamic)", "core/src/label/value.rs: LabelSet"]}
{"id": "C05", "title": "Label ids are one-to-one for every derived group", "statement": "Distinct label groups of a derived set always receive distinct ids (documented as a one-to-one mapping), also when the number of combinations exceeds usize::MAX and cardinality() is None.", "quantifier": "for all field lists and set sizes, including products over 2^64, both build modes", "why_tests_cant": "The overflow only occurs with products of cardinalities above 2^64, which no test builds.", "anchors": ["derive/src/label_group/to_tokens.rs: encode (index += ..*mul; mul *= ..), cardinality (checked_mul)", "core/src/label/group.rs: LabelGroupSet docs"]}
{"id": "C06", "title": "Dynamic label ids are stable and injective", "statement": "Once a dynamic (interned) label set has given an id to a string, every later encode of the same string returns the same id, decode of that id always returns that string, and different strings have different ids, whatever is interned in between.", "quantifier": "for every sequence of encode calls on the set", "why_tests_cant": "The guarantee is over unbounded sequences of future interning operations.", "anchors": ["core/src/label/impls.rs: DynamicLabelSet for ThreadedRodeo", "core/src/label/value.rs: DynamicLabelSet, LabelSet"]}
{"id": "C07", "title": "Composed label group sets stay bijective", "statement": "If A and B are label group sets with one-to-one dense encodings then ComposedGroup(A,B) has one as well: cardinality() is the product (None iff one is None or the product exceeds usize::MAX), encode_dense lands in 0..cardinality(), decode_dense inverts it, decode inverts encode, and no arithmetic overflows.", "quantifier": "for all pairs of lawful sets (hence all nestings) and all ids", "why_tests_cant": "Nested composition depth and cardinalities are unbounded.", "anchors": ["core/src/label/group.rs: impl LabelGroupSet for ComposedGroup"]}
{"id": "C08", "title": "Fixed label sets (IndexSet, RodeoReader, phf::OrderedSet, StaticLabelSet) are lawful", "statement": "For each fixed-cardinality set, encode(v) is Some exactly for members, encode/decode are mutually inverse on 0..cardinality(), and wrapping the set in Arc or a reference changes nothing.", "quantifier": "for all contents of the set and all values", "why_tests_cant": "Any contents and sizes are allowed; tests use a few strings.", "anchors": ["core/src/label/impls.rs: IndexSet, RodeoReader, OrderedSet, Arc", "core/src/label/value.rs: StaticLabelSet, FixedCardinalitySet, LabelSet"]}
{"id": "C09", "title": "A labelled metric behaves as a map from label groups to metric states", "statement": "For any sequence of label lookups, metric accesses (by fresh or by previously issued ids, shared or exclusive), removals and init calls, the state observed for each label group is what an abstract map from label group to metric state (default when first touched) would give.", "quantifier": "for every finite sequence of operations, every lawful label set, every hash function, every shard count, dense and sparse vectors", "why_tests_cant": "Operation sequences and hash collisions are unbounded.", "anchors": ["core/src/metric.rs: MetricVec::{with_labels,try_with_labels,get_metric,get_metric_mut,remove_metric,init_all_dense}, VecInner", "core/src/metric/sparse.rs: ShardedMap"]}
{"id": "C10", "title": "Updating one label never affects another", "statement": "An access through the id of label group g leaves the state reported for every other group g' unchanged, including groups whose ids hash to the same value or live in the same shard.", "quantifier": "for all reachable vectors, all pairs of distinct groups, all updates, all hash functions", "why_tests_cant": "Colliding hashes cannot be enumerated by tests.", "anchors": ["core/src/metric.rs: MetricVec::get_metric, VecInner::get_metric", "core/src/metric/sparse.rs: ShardedMap::get_metric"]}
{"id": "C11", "title": "Dense and sparse storage are observationally equivalent", "statement": "Running the same sequence of operations without remove_metric and init_all_dense on a dense vector and on a sparse vector over the same label set yields the same results and, up to order, the same collected samples and the same live count.", "quantifier": "for all operation sequences without remove_metric and init_all_dense, all sets with known cardinality", "why_tests_cant": "Needs a simulation argument over all executions.", "anchors": ["core/src/metric.rs: VecInner::{Dense,Sparse}, MetricVec::{new_dense,new_sparse}", "core/src/metric/sparse.rs"]}
{"id": "C12", "title": "remove_metric returns the whole accumulated state and forgets the label", "statement": "On a sparse vector remove_metric(id) returns the state accumulated since the label's creation or previous removal (None if never touched), afterwards the label is absent from collection and restarts from the default; on a dense vector it returns None and changes nothing.", "quantifier": "for all reachable vectors and ids", "why_tests_cant": "State-space claim over arbitrary histories.", "anchors": ["core/src/metric.rs: MetricVec::remove_metric", "core/src/metric/sparse.rs: ShardedMap::remove_metric"]}
{"id": "C13", "title": "get_cardinality reports the exact number of live labels and a valid bound", "statement": "The first component of get_cardinality() is the number of distinct label groups currently live (touched and not removed); it never exceeds the second component when that is Some.", "quantifier": "for all reachable vectors", "why_tests_cant": "Counting claim over all histories.", "anchors": ["core/src/metric.rs: MetricVec::get_cardinality", "core/src/metric/sparse.rs: ShardedMap::get_cardinality"]}
{"id": "C14", "title": "init_all_dense exposes every combination and preserves existing values", "statement": "After init_all_dense on a dense vector every group of the label set is live, groups that were live keep their state, the others have the default state; on a sparse vector nothing changes.", "quantifier": "for all reachable vectors", "why_tests_cant": "All combinations of all sets and histories.", "anchors": ["core/src/metric.rs: MetricVec::init_all_dense"]}
{"id": "C15", "title": "Collection emits each live label exactly once with its current value", "statement": "collect_family_into writes the type line and then, for every live label group, exactly one sample carrying that group's decoded labels and its current state, and no other sample; it never panics.", "quantifier": "for all reachable vectors and encoders", "why_tests_cant": "Exactly-once over arbitrary histories.", "anchors": ["core/src/metric.rs: impl MetricFamilyEncoding for MetricVec / Metric / Option"]}
{"id": "C16", "title": "Dense collection order is lexicographic in declared field order", "statement": "Samples of a dense vector over a derived label set come out sorted lexicographically by the declared order of the fixed fields (first field most significant), each field ordered by its set's numbering.", "quantifier": "for all lists of fixed fields, all live sets", "why_tests_cant": "Order over all pairs of label combinations.", "anchors": ["derive/src/label_group/to_tokens.rs: fixed reversed", "core/src/metric.rs: impl MetricFamilyEncoding for MetricVec"]}
{"id": "C17", "title": "Storage choice follows the documented cardinality rule", "statement": "new() chooses dense storage with exactly cardinality() cells iff cardinality() is Some(c) with c <= 1024, sparse otherwise; dense constructors panic iff cardinality() is None.", "quantifier": "for all cardinalities", "why_tests_cant": "Boundary behaviour for all values.", "anchors": ["core/src/metric.rs: MetricVec::with_label_set_and_metadata, dense_with_label_set_and_metadata, sparse_with_label_set_and_metadata, DEFAULT_MAX_DENSE"]}
{"id": "C18", "title": "Label ids are always usable", "statement": "with_labels panics iff the group is not encodable, try_with_labels returns None iff it is not encodable; an id obtained from a vector never causes a panic or an out-of-range access in later get_metric/get_metric_mut/remove_metric calls on it, and two ids are equal iff their groups are equal.", "quantifier": "for all reachable vectors, all groups, all later operations", "why_tests_cant": "Id validity must survive all later operations.", "anchors": ["core/src/metric.rs: MetricVec::{with_labels,try_with_labels}, LabelId, LabelIdInner"]}
{"id": "C19", "title": "Shard selection is always in range and depends only on the hash", "statement": "On every machine (any reported parallelism up to 2^55) the sharded map is created with a power-of-two number of shards >= 4, and for every 64-bit hash the computed shard index is a valid index; get, get_mut and remove use the same shard.", "quantifier": "for all 64-bit hashes and all parallelism values", "why_tests_cant": "2^64 hashes times all machine sizes.", "anchors": ["core/src/metric/sparse.rs: ShardedMap::new, default_shard_amount, get_metric, remove_metric, get_metric_mut"]}
{"id": "C20", "title": "No counter or gauge update is lost under concurrency", "statement": "Under any interleaving of inc/inc_by/dec/dec_by by any number of threads, once all calls completed the counter (gauge) holds the initial value plus the sum of all increments minus decrements modulo 2^64; every intermediate read equals the value after some prefix of the completed updates.", "quantifier": "for all thread counts, programs and interleavings", "why_tests_cant": "Interleavings are unbounded.", "anchors": ["core/src/metric/counter.rs: CounterState::{inc,inc_by}", "core/src/metric/gauge.rs: GaugeState::{inc,inc_by,dec,dec_by,set}"]}
{"id": "C21", "title": "Float gauge updates are applied exactly once", "statement": "Under any interleaving of FloatGauge inc_by/dec_by/set calls, including spurious compare-exchange failures, each completed call has taken effect exactly once and atomically between its start and end: the current value is the fold of the floating-point operations in the order of their effects.", "quantifier": "for all thread counts, programs, interleavings and spurious failures", "why_tests_cant": "CAS retry loops have unboundedly many executions.", "anchors": ["core/src/metric/gauge.rs: AtomicF64::{set,get,inc,inc_by,dec_by}, FloatGaugeState"]}
{"id": "C22", "title": "A histogram sample is a consistent snapshot", "statement": "Whatever the interleaving of observers, each sample taken for encoding contains exactly the observations completed before it: bucket counts and sum describe the same set of observations; none is half-recorded.", "quantifier": "for all thread counts and interleavings of observe and sample", "why_tests_cant": "Data-race style property over all schedules.", "anchors": ["core/src/metric/histogram.rs: HistogramState, HistogramStateInner::{observe,sample}, HistogramLockGuard::observe", "core/src/text.rs: HistogramState::collect_into"]}
{"id": "C23", "title": "Sparse vectors lose no update when labels are created and removed concurrently", "statement": "Under any interleaving of get_metric+update, remove_metric and collection on a sparse vector, there is never more than one entry per label, and for each label the updates applied are exactly those contained in the current entry plus those in entries returned by remove_metric.", "quantifier": "for all thread counts, programs, key distributions and interleavings", "why_tests_cant": "Races between the read-probe and the write-lock insert need all schedules.", "anchors": ["core/src/metric/sparse.rs: ShardedMap::{get_metric,remove_metric}", "core/src/metric.rs: MetricVec::get_metric, remove_metric"]}
{"id": "C24", "title": "Concurrent collection reports stable labels exactly once", "statement": "While other threads create, update and remove labels, a collection pass over a sparse vector emits no label group twice, and every label live during the whole pass is emitted exactly once with a state it had at some moment during the pass.", "quantifier": "for all interleavings of one collection with any other operations", "why_tests_cant": "All schedules of a shard-by-shard scan.", "anchors": ["core/src/metric.rs: impl MetricFamilyEncoding for MetricVec (sparse arm)", "core/src/metric/sparse.rs"]}
{"id": "C25", "title": "Threads holding at most one guard never deadlock", "statement": "If every thread releases its metric guard before starting another operation on the same vector, some thread can always make progress; a thread that keeps a guard and looks up a label that is not yet present can block forever.", "quantifier": "for all thread counts, programs and reachable lock states", "why_tests_cant": "Deadlock freedom quantifies over all schedules.", "anchors": ["core/src/metric/sparse.rs: ShardedMap::get_metric, MappedRwLockReadGuard"]}
{"id": "C26", "title": "Cumulative bucket counts count observations at or below the bound", "statement": "For strictly increasing thresholds and any sequence of observations, the exported bucket with le=b holds the number of observations x with x <= b, the +Inf bucket and _count hold the number of all observations.", "quantifier": "for all N, thresholds, observation sequences", "why_tests_cant": "Observations and thresholds are arbitrary floats.", "anchors": ["core/src/metric/histogram.rs: HistogramLockGuard::observe, HistogramMut::observe, HistogramStateInner::observe", "core/src/text.rs: HistogramState::collect_into"]}
{"id": "C27", "title": "with_buckets accepts exactly strictly increasing thresholds", "statement": "Thresholds::with_buckets(b) returns thresholds equal to b when b is strictly increasing and panics otherwise.", "quantifier": "for all N and all arrays of f64", "why_tests_cant": "All arrays, including NaN and empty arrays.", "anchors": ["core/src/metric/histogram.rs: Thresholds::with_buckets"]}
{"id": "C28", "title": "linear_buckets and exponential_buckets give non-decreasing thresholds", "statement": "Whenever linear_buckets(start,width) or exponential_buckets(start,factor) returns, the thresholds are non-decreasing, so each observation is put in the first bucket whose bound is not below it.", "quantifier": "for all N up to 2^31 (a larger threshold array takes more than 16 GiB), all finite f64 start and width/factor", "why_tests_cant": "Rounding behaviour over all floats.", "anchors": ["core/src/metric/histogram.rs: Thresholds::{linear_buckets,exponential_buckets}"]}
{"id": "C29", "title": "Histogram exposition is internally consistent", "statement": "The bucket lines of an exported histogram have non-decreasing counts, the le=\"+Inf\" line equals the _count line, and there are exactly N+1 bucket lines, in threshold order, followed by _sum and _count, all carrying the same other labels.", "quantifier": "for all histogram states, label groups and names", "why_tests_cant": "All states and label groups.", "anchors": ["core/src/text.rs: HistogramState::collect_into"]}
{"id": "C30", "title": "Timers record exactly once unless forgotten", "statement": "A histogram timer records exactly one observation in its histogram (for the label group it was started for) if it is observed or dropped, and none if it is forgotten.", "quantifier": "for all uses of a timer", "why_tests_cant": "Drop interacts with explicit consumption on every path.", "anchors": ["core/src/metric/histogram.rs: HistogramTimer, HistogramVecTimer"]}
{"id": "C31", "title": "Label value escaping is lossless and safe", "statement": "The text encoding of a label string contains no raw newline and no unescaped quote, unescaping it gives back the original string, and distinct strings have distinct encodings.", "quantifier": "for all byte strings", "why_tests_cant": "All strings, including those with runs of backslashes and quotes.", "anchors": ["core/src/text.rs: write_label_str_value, Visitor::write_str"]}
{"id": "C32", "title": "A sample line parses back to its name, labels and value", "statement": "Parsing a written sample line with the Prometheus text grammar gives the metric name, the label pairs in visiting order with their original values, and the value.", "quantifier": "for all valid names, label groups and values", "why_tests_cant": "All label contents.", "anchors": ["core/src/text.rs: TextEncoder::write_metric_value"]}
{"id": "C33", "title": "The whole text exposition parses back to the collected families", "statement": "Parsing everything written for a list of families (help, type, samples) gives exactly these families in order, with the blank lines only between families.", "quantifier": "for all lists of families with newline-free help", "why_tests_cant": "Unbounded documents.", "anchors": ["core/src/text.rs: TextEncoder::{write_help,write_type,write_metric_value,flush}"]}
{"id": "C34", "title": "Help text stays on its line", "statement": "write_help writes exactly one line whatever the help text is.", "quantifier": "for all help strings", "why_tests_cant": "All strings including newlines.", "anchors": ["core/src/text.rs: Encoding::write_help for TextEncoder"]}
{"id": "C35", "title": "Text output shows the true counter value", "statement": "The value written for a counter (or histogram bucket) is the decimal representation of its u64 count.", "quantifier": "for all counts below 2^64", "why_tests_cant": "Only visible above i64::MAX.", "anchors": ["core/src/text.rs: CounterState::collect_into, HistogramState::collect_into, write_metric_value"]}
{"id": "C36", "title": "A text encoder can be reused after finish or flush", "statement": "The bytes obtained from BufferedTextEncoder::finish depend only on what was collected since the previous finish: reuse is indistinguishable from a fresh encoder.", "quantifier": "for all sequences of encoder calls and finishes", "why_tests_cant": "All histories of the encoder.", "anchors": ["core/src/text.rs: BufferedTextEncoder::finish, TextEncoder::flush"]}
{"id": "C37", "title": "Ok from the text encoder means everything was written", "statement": "If collecting into a TextEncoder over an arbitrary writer returns Ok, the writer accepted exactly the bytes that a buffer would have received.", "quantifier": "for all failing writers and all collected values", "why_tests_cant": "Needs failure injection at every write call.", "anchors": ["core/src/text.rs: TextEncoder::write_metric_value, Visitor, GroupVisitor"]}
{"id": "C38", "title": "Metric name validation matches the documented regex", "statement": "MetricName::from_str / try_from_str accept exactly the strings matching [a-zA-Z_:][a-zA-Z0-9_:]*.", "quantifier": "for all strings", "why_tests_cant": "All strings.", "anchors": ["core/src/metric/name.rs: MetricName::{from_str,try_from_str}, const_assert_metric_name, try_assert_metric_name"]}
{"id": "C39", "title": "Label name validation matches the documented regex", "statement": "LabelName::from_str accepts exactly the strings matching [a-zA-Z_][a-zA-Z0-9_]* and panics on all others.", "quantifier": "for all strings", "why_tests_cant": "All strings.", "anchors": ["core/src/label/name.rs: LabelName::from_str, assert_label_name"]}
{"id": "C40", "title": "Name composition is correct, valid and its length is exact", "statement": "Any nesting of namespaces and suffixes around a valid metric name encodes to ns1_ns2_.._name_suffix, is again a valid metric name, and encode_len() equals the number of bytes written.", "quantifier": "for all nestings of namespaces and suffixes", "why_tests_cant": "Unbounded nesting.", "anchors": ["core/src/metric/name.rs: WithNamespace, WithSuffix, Suffix impls, MetricNameEncoder"]}
{"id": "C41", "title": "Metric groups collect in order under the right names", "statement": "Collecting a (derived, composed, optional, namespaced, flattened) group performs exactly the help/type/sample calls of its fields in declaration order, each name prefixed with the namespaces from the outside in, absent Options contribute nothing, and the first error stops collection.", "quantifier": "for all group trees and encoders", "why_tests_cant": "Unbounded nesting of groups.", "anchors": ["core/src/metric/group.rs: impls of MetricGroup, Encoding and MetricEncoding for WithNamespace", "derive/src/metric_group/to_tokens.rs: collect_group_into"]}
{"id": "C42", "title": "Varint encoding round-trips with the computed length", "statement": "encode_varint writes between 1 and 10 bytes, exactly encoded_len_varint(v) many, and a LEB128 decoder reads v back leaving the rest of the input untouched.", "quantifier": "for all 64-bit values", "why_tests_cant": "2^64 values and the leading-zeros formula.", "anchors": ["prometheus-proto/src/encoding.rs: encode_varint, encoded_len_varint"]}
{"id": "C43", "title": "Every protobuf length prefix is exact", "statement": "In the protobuf output the length written before each nested message (label pair, counter/gauge, metric, family) equals the number of bytes of that message, for any labels and names; the family length written backwards into the reserved ten bytes never overwrites message bytes.", "quantifier": "for all label groups, names, values and family sizes below 2^64", "why_tests_cant": "All sizes, including those where varint lengths change.", "anchors": ["prometheus-proto/src/lib.rs: encode_message, message_len, GroupLenVisitor, flush_buf, collect_into impls", "prometheus-proto/src/encoding.rs"]}
{"id": "C44", "title": "A protobuf scrape decodes to the collected families", "statement": "Decoding the bytes produced by ProtoEncoder (after flush) as a stream of length-delimited MetricFamily messages gives exactly the collected non-empty families in order, with their own name, help, type, labels and values.", "quantifier": "for all lists of counter/gauge families", "why_tests_cant": "Unbounded documents; interaction between consecutive families.", "anchors": ["prometheus-proto/src/lib.rs: ProtoEncoder::{flush,flush_buf}, write_help, write_type, collect_into"]}
{"id": "C45", "title": "Counter values are exact in protobuf", "statement": "The double written for a counter is numerically equal to its count.", "quantifier": "for all counts below 2^64", "why_tests_cant": "Only visible above 2^53.", "anchors": ["prometheus-proto/src/lib.rs: CounterState::collect_into (as f64)"]}
{"id": "C46", "title": "Process metrics describe the process given to the collector", "statement": "ProcessCollector::new(pid) reports start time, fds, memory, cpu and threads of process pid.", "quantifier": "for all process tables and pids", "why_tests_cant": "Tests only look at the current process.", "anchors": ["process/src/lib.rs: ProcessCollector::new, collect_group_into"]}
{"id": "C47", "title": "Concurrent first use of a dense label creates a single state", "statement": "When several threads touch an uninitialised dense label at once, all use the same metric state and no update is lost; an initialised cell is never reset.", "quantifier": "for all thread counts and interleavings", "why_tests_cant": "All schedules of first use.", "anchors": ["core/src/metric.rs: VecInner::get_metric (OnceLock::get_or_init), init_all_dense"]}
{"id": "C48", "title": "Tokio poll-time histogram is cumulative and labelled per runtime", "statement": "The exported worker poll-time buckets of each worker of each runtime are cumulative over its buckets; their upper bounds increase whenever the ends of the runtime's buckets increase by at least one part in 2^49 (or reach the unbounded bucket, shown as +Inf); and each sample carries the label of its runtime only.", "quantifier": "for all numbers of runtimes, workers, buckets and counts", "why_tests_cant": "Runtime metrics are arbitrary.", "anchors": ["tokio/src/lib.rs: collect, histogram_le, NamedRuntimesCollector, RuntimeCollector"]}
{"id": "C49", "title": "Text output is valid UTF-8", "statement": "If all names, help texts and label values are UTF-8 strings then the bytes returned by finish() form a valid UTF-8 string, so String::from_utf8 on them cannot fail.", "quantifier": "for all strings and collected values", "why_tests_cant": "All strings.", "anchors": ["core/src/text.rs: write_label_str_value, BufferedTextEncoder::finish"]}
{"id": "C50", "title": "Any sequence of encoder calls reads back line by line", "statement": "For any sequence of write_help, write_type and sample calls, in any order and split over any number of passes, the text reads back as exactly the lines of these calls in order, with a blank line exactly before each HELP or TYPE that directly follows a sample.", "quantifier": "for all call sequences with valid names, plain help and counts below 2^63", "why_tests_cant": "Custom collectors may call the encoder in any order.", "anchors": ["core/src/text.rs: TextEncoder::{write_help,write_type}, write_line, write_label*, State"]}
{"id": "C51", "title": "Durations become seconds accurately and in order", "statement": "Duration::as_secs_f64, through which every timer and tokio duration passes, has relative error at most 2^-51, never reverses the order of two durations, and separates any two durations below 13 days or differing by one part in 2^49.", "quantifier": "for all durations", "why_tests_cant": "Rounding of three floating point operations over all durations.", "anchors": ["core/src/metric/histogram.rs: HistogramTimer (observe_duration)", "tokio/src/lib.rs: as_secs_f64 calls"]}
{"id": "C52", "title": "Every exposed family carries its type", "statement": "In the text exposition every family has a TYPE line with the type of its metric.", "quantifier": "for all families and collectors", "why_tests_cant": "All collectors, metrics and groups.", "anchors": ["core/src/metric/group.rs: MetricEncoding::write_type", "process/src/lib.rs: collect_group_into", "tokio/src/lib.rs: collect"]}
{"id": "C53", "title": "Shared and exclusive references agree", "statement": "Any mix of calls on a counter, gauge, float gauge or histogram through get_metric (atomic, shared) and get_metric_mut (plain, exclusive) has the effect of the same calls in order: the exact total while it fits, else modulo 2^64; only an exclusive call that overflows in a debug build panics.", "quantifier": "for all call sequences, start values and build modes", "why_tests_cant": "Overflow behaviour differs between atomics and plain integers and between builds.", "anchors": ["core/src/metric/counter.rs: CounterLockGuard, CounterMut", "core/src/metric/gauge.rs: GaugeLockGuard, GaugeMut, FloatGaugeLockGuard, FloatGaugeMut", "core/src/metric/histogram.rs: HistogramLockGuard, HistogramMut"]}
{"id": "C54", "title": "From calls on a vector to the scrape", "statement": "After any sequence of with_labels/get_metric/get_metric_mut/remove_metric calls on a vector of counters, gauges, float gauges or histograms, dense or sparse, a text scrape reads back as one family with exactly one metric per label group used since it was last removed, showing exactly the total of its calls.", "quantifier": "for all label sets obeying the label group laws, all call sequences, all vectors", "why_tests_cant": "End to end over all call sequences; needs all layers.", "anchors": ["core/src/metric.rs: MetricVec", "core/src/metric/counter.rs", "core/src/metric/gauge.rs", "core/src/metric/histogram.rs", "core/src/text.rs"]}
{"id": "C55", "title": "Duration histograms count durations", "statement": "In a histogram fed by observe_duration (directly or by timers), the cumulative bucket with bound D (in seconds) counts every observed duration of at most D and none longer than D by one part in 2^49; for durations up to 13 days it counts exactly those of at most D.", "quantifier": "for all durations, bounds and sequences", "why_tests_cant": "Depends on rounding in as_secs_f64 for all durations.", "anchors": ["core/src/metric/histogram.rs: observe_duration, observe", "core/src/metric/histogram.rs: HistogramTimer"]}
{"id": "C56", "title": "No series appears twice in a scrape", "statement": "A scrape of a vector shows no two samples with the same name and the same set of labels.", "quantifier": "for all vectors, label groups, thresholds and call sequences", "why_tests_cant": "All pairs of samples for all inputs.", "anchors": ["core/src/metric.rs: MetricVec::collect_family_into", "core/src/metric/histogram.rs: collect_into, Thresholds", "core/src/label/group.rs: ComposedGroup"]}
{"id": "C57", "title": "No sample has two labels with the same name", "statement": "No sample in a scrape carries two labels with the same name.", "quantifier": "for all label groups and metrics", "why_tests_cant": "All compositions of label groups.", "anchors": ["core/src/label/group.rs: ComposedGroup", "core/src/metric/histogram.rs: HistogramLabelLe", "core/src/text.rs: LabelGroupVisitor"]}
{"id": "C58", "title": "Derive attributes are accepted exactly when they do not contradict each other", "statement": "A derive macro accepts the attributes of a field or enum exactly when no argument is unknown, none is given twice and none excludes another; what it makes of them does not depend on their order, and new() starts a metric field with the one expression they call for.", "quantifier": "for all lists of attributes and arguments", "why_tests_cant": "Compile-time behaviour over all combinations of attributes.", "anchors": ["derive/src/metric_group/attr.rs: MetricGroupFieldAttrs::parse_attrs", "derive/src/label_group/attr.rs: LabelGroupFieldAttrs::parse_attrs", "derive/src/value/attr.rs: ContainerAttrs::parse", "derive/src/metric_group/to_tokens.rs: inits"]}
{"id": "C59", "title": "A derived metric group is what its declaration says", "statement": "A struct with #[derive(MetricGroup)] compiles exactly when its attributes are consistent, each field has a type that fits its kind and the metric names are valid and distinct; it then exposes, in declaration order, each metric field under its rename or own name with its doc comment, each flatten field's items and each namespace field's items inside the namespace.", "quantifier": "for all structs", "why_tests_cant": "Code generation for all structs.", "anchors": ["derive/src/metric_group/parse.rs", "derive/src/metric_group/to_tokens.rs: visits"]}
{"id": "C60", "title": "Constructors of derived label sets", "statement": "The macro always finishes with a constructor: new takes the sets of the dynamic_with fields, then of the fixed_with fields, that are not default, in declaration order; every field of the set is filled once, from its argument, Default or StaticLabelSet::new; there is a Default impl exactly if new takes nothing.", "quantifier": "for all structs with parsed attributes", "why_tests_cant": "Code generation for all structs; the unreachable! must be shown unreachable.", "anchors": ["derive/src/label_group/to_tokens.rs: defaults, args", "derive/src/label_group/attr.rs: get_sort_key"]}
{"id": "C61", "title": "Distinct variants have distinct labels", "statement": "Two different variants of an enum with #[derive(FixedCardinalityLabel)] are never shown with the same label value.", "quantifier": "for all enums", "why_tests_cant": "All enums.", "anchors": ["derive/src/value/to_tokens.rs: visits", "derive/src/value/attr.rs: VariantAttrs"]}
{"id": "C62", "title": "No family appears twice in a derived group", "statement": "The families of a struct with #[derive(MetricGroup)] that compiles have pairwise different full names.", "quantifier": "for all structs", "why_tests_cant": "All structs and nestings.", "anchors": ["derive/src/metric_group/to_tokens.rs: visits", "core/src/metric/group.rs: MetricGroup for WithNamespace"]}
{"id": "C63", "title": "Text and protobuf expositions agree", "statement": "Scraped through the text encoder and through the protobuf encoder, the same families without histograms read back alike: the same families with samples in the same order, with the same names, help texts, types and label pairs, and each protobuf number is the double nearest to the number in the text.", "quantifier": "for all lists of families without histograms", "why_tests_cant": "Two encoders with separate code for every kind of metric and label; all names, labels and values.", "anchors": ["core/src/text.rs", "prometheus-proto/src/lib.rs"]}
{"id": "C64", "title": "Successive scrapes never go back", "statement": "Of two scrapes, the second of which happens after the first (same thread, or synchronised), the second shows no smaller counter (if only increments are made and it does not overflow), no smaller cumulative bucket or total count of a histogram, and no smaller sum if nothing negative was observed.", "quantifier": "for all interleavings of any number of threads, all values and thresholds", "why_tests_cant": "All interleavings and stale reads; rounding of the sum.", "anchors": ["core/src/metric/counter.rs: inc_by", "core/src/metric/histogram.rs: observe, sample", "core/src/text.rs: MetricEncoding"]}
{"id": "C65", "title": "Calls on metrics do not get stuck", "statement": "Whatever observations, samples, increments and sets are in progress on a histogram or float gauge, some thread can always go on, and if no new calls start all of them return after a bounded number of steps.", "quantifier": "for all reachable states of any number of threads and all schedules", "why_tests_cant": "All schedules; unbounded retry loops and locks.", "anchors": ["core/src/metric/histogram.rs: observe, sample", "core/src/metric/gauge.rs: AtomicF64::inc_by"]}
{"id": "C66", "title": "Label ids agree between threads", "statement": "When several threads encode and decode groups of one derived label set at the same time, in any interleaving of their interner calls, and others use the same interners for other label sets, two returned ids are equal exactly if the groups are equal, a decode returns the group its id was handed out for, and nothing panics.", "quantifier": "for all derived label group sets with lawful fields whose fixed cardinalities multiply without overflow, all interleavings of any number of threads", "why_tests_cant": "All interleavings; interners shared between fields and threads.", "anchors": ["derive/src/label_group/to_tokens.rs: encode, decode", "core/src/label/impls.rs: LabelSet for ThreadedRodeo"]}
{"id": "C67", "title": "Series stay between scrapes of a vector", "statement": "Of two scrapes of a metric vector, the second after the first, a series shown by the first and not removed since is shown by the second exactly once and with at least the updates that the first showed; counters that do not overflow never go back.", "quantifier": "for all interleavings of any number of threads that create, update, remove and collect", "why_tests_cant": "All schedules of two shard-by-shard scans and everything in between.", "anchors": ["core/src/metric.rs: impl MetricFamilyEncoding for MetricVec", "core/src/metric/sparse.rs"]}
{"id": "C68", "title": "A scrape of a vector in use shows true values", "statement": "While any number of threads create, update, remove and collect, the text of one collection of a counter, gauge, float gauge or histogram vector reads back as one family in which no label group has two series, every series shows exactly what the calls that had taken effect on it at some moment of the collection add up to, and no label group is missing that was in the vector during the whole collection.", "quantifier": "for all interleavings of any number of threads, all calls and label groups, as long as counts and values fit their types", "why_tests_cant": "Needs the whole path from concurrent calls to the text; all schedules.", "anchors": ["core/src/metric.rs: impl MetricFamilyEncoding for MetricVec", "core/src/metric/sparse.rs", "core/src/metric/dense.rs", "core/src/text.rs: MetricEncoding"]}
{"id": "C69", "title": "Generated bucket bounds are what they are documented to be", "statement": "`linear_buckets(start, width)` and `exponential_buckets(start, factor)` panic exactly for the arguments for which their documentation says so; otherwise the array has as many bounds as asked for, the first is `start`, and bound i is start + i*width or start*factor^i, up to a rounding error that is at most proportional to i.", "quantifier": "for all numbers of bounds below 2^31 and all finite arguments", "why_tests_cant": "Arguments range over all doubles; rounding errors add up.", "anchors": ["core/src/metric/histogram.rs: Thresholds::linear_buckets, Thresholds::exponential_buckets"]}
{"id": "C70", "title": "Sums are accurate", "statement": "The sum of a histogram and the value of a float gauge, if finite, differ from the exact sum of the observed or added values by at most one rounding (relative error 2^-53) for each of them, whatever the number of threads and the order in which the calls take effect.", "quantifier": "for all interleavings of any number of threads and all values", "why_tests_cant": "All interleavings and all doubles; the order of additions changes the result.", "anchors": ["core/src/metric/histogram.rs: observe, sample", "core/src/metric/gauge.rs: AtomicF64::inc_by", "core/src/text.rs: MetricEncoding"]}
{"id": "C71", "title": "A scrape of a whole group in use shows true values", "statement": "While any number of threads use a metric group of counters, gauges, float gauges, histograms and sparse and dense vectors of them, the text of one collection of the group reads back as exactly one family per metric field, in the order of the fields, each with the name, help and type of its field, and each showing values that its metric or vector really had: for a single counter or gauge the result of some of the updates made so far, including all of the reader's own; for a histogram exactly the finished observations; for a vector what the calls on each series had added up to at some moment of the collection, no series twice and none missing that was there throughout.", "quantifier": "for all interleavings of any number of threads on all fields, all calls and label groups, as long as counts and values fit their types", "why_tests_cant": "Needs the whole path from concurrent calls on several metrics to the text; all schedules.", "anchors": ["derive/src/metric_group/to_tokens.rs", "core/src/metric.rs: impl MetricFamilyEncoding for Metric, for MetricVec", "core/src/text.rs"]}
{"id": "C72", "title": "A protobuf scrape of a whole group in use shows true values", "statement": "While any number of threads use a metric group of counters, gauges and float gauges and sparse and dense vectors of them, the messages that the protobuf encoder writes in one collection of the group decode to the families of the fields that have an entry, in the order of the fields, each with the name, help and type of its field and with values (as nearest doubles) that its metric or vector really had, in the sense of the previous property; no field is left out that had an entry throughout.", "quantifier": "for all interleavings of any number of threads on all fields, all calls and label groups, as long as the fields that have help text but may be empty come after all that have none, values fit their types and the scrape has less than 2^64 bytes", "why_tests_cant": "Needs the whole path from concurrent calls on several metrics to the bytes; all schedules.", "anchors": ["derive/src/metric_group/to_tokens.rs", "core/src/metric.rs: impl MetricFamilyEncoding for Metric, for MetricVec", "prometheus-proto/src/lib.rs"]}
{"id": "C73", "title": "Protobuf scrapes by the process and tokio collectors show what the text shows", "statement": "Scraped with the protobuf encoder, the process collector and the runtime collectors give the same series as with the text encoder: every sample in a family of its own name, with the same labels and value, of the type its value has.", "quantifier": "for all answers of the operating system and of all runtimes, as long as counts and values fit their types and the scrape has less than 2^64 bytes", "why_tests_cant": "All values; two encoders that hand-written collectors call directly.", "anchors": ["process/src/lib.rs: collect_group_into", "tokio/src/lib.rs: collect", "prometheus-proto/src/lib.rs"]}
{"id": "C74", "title": "The runtime collectors show no series twice", "statement": "In one scrape of any number of runtimes no two samples have the same name and the same labels, and no sample has two labels of the same name.", "quantifier": "for all numbers of runtimes, workers and buckets and all their answers", "why_tests_cant": "All numbers of runtimes, workers and buckets; bucket bounds are rounded to doubles.", "anchors": ["tokio/src/lib.rs: collect, NamedRuntimesCollector::add"]}
{"id": "C75", "title": "A vector in use shows the right value under every label group", "statement": "While any number of threads turn label groups into ids with interners that other vectors may share, use and remove the metrics of ids that any of them was given, and collect, no call panics, and the text of a collection reads back as one family with the labels of pairwise different groups: each with the value that the calls made through ids for this very group had added up to at some moment of the collection, and no group missing whose metric was there throughout. No series comes twice if different groups have different labels.", "quantifier": "for all interleavings of any number of threads, all derived groups with up to 2^64 - 1 combinations of fixed values and any number of interned fields, all calls, as long as counts and values fit their types", "why_tests_cant": "Needs the interners, the map and the encoder together; all schedules.", "anchors": ["core/src/metric.rs: with_labels, get_metric, remove_metric, impl MetricFamilyEncoding for MetricVec", "derive/src/label_group/to_tokens.rs: encode, decode", "core/src/metric/sparse.rs"]}
{"id": "C76", "title": "Two scrapes of a whole group in use: nothing goes back, nothing vanishes", "statement": "A metric group of counters, gauges, float gauges, histograms and sparse and dense vectors of them is in use by any number of threads and is collected twice, the second time after the first is over and by the same thread or one that has synchronised with it. Every sample in the first scrape has a sample in the second with the same name and labels, unless the metric of these labels was removed in between. No counter that is only incremented and does not overflow has gone down, no bucket or count of a histogram, and no sum of a histogram with no negative observation. The same holds for two scrapes with the protobuf encoder (without histograms).", "quantifier": "for all interleavings of any number of threads on all fields, all calls and label groups, as long as counts and values fit their types (and, with protobuf, under the conditions of C72)", "why_tests_cant": "Needs the whole path from concurrent calls on several metrics to two texts; all schedules; relaxed memory.", "anchors": ["derive/src/metric_group/to_tokens.rs", "core/src/metric.rs: impl MetricFamilyEncoding for Metric, for MetricVec", "core/src/metric/counter.rs", "core/src/metric/histogram.rs: observe, sample", "core/src/text.rs", "prometheus-proto/src/lib.rs"]}
{"id": "C77", "title": "Which types the derive macros accept", "statement": "No derive macro panics on any type. LabelGroup accepts exactly structs with named fields, `set` given once and `crate` at most once; MetricGroup structs with named fields and `new` and `crate` at most once each; FixedCardinalityLabel enums whose variants have no fields, are renamed at most once and have an integer literal as discriminant if any, with `crate`, `rename_all` and `singleton` at most once each; everything else is a compile error. What is accepted is taken over unchanged and in order, and the generated `new` exists exactly when asked for and fills every field with the expression its attributes call for.", "quantifier": "for all types and attributes", "why_tests_cant": "A compile error or wrong code shows up only in the user's crate; all combinations of attributes.", "anchors": ["derive/src/label_group/parse.rs", "derive/src/metric_group/parse.rs", "derive/src/value/parse.rs", "derive/src/label_group/attr.rs: ContainerAttrs", "derive/src/metric_group/attr.rs: ContainerAttrs", "derive/src/value/attr.rs: VariantAttrs"]}
{"id": "C78", "title": "The test visitor shows what the encoders show", "statement": "The string that LabelTestVisitor returns for a label value is exactly the string that a reader finds for this value in the text exposition and in the label pair of the protobuf exposition; it denotes the value, and the protobuf length visitor counts the bytes that are written.", "quantifier": "for all label values: strings, integers, doubles including infinities and NaN", "why_tests_cant": "All values; four visitors that are written out separately.", "anchors": ["core/src/label/value.rs: LabelTestVisitor", "core/src/text.rs: Visitor", "prometheus-proto/src/lib.rs: Visitor, LenVisitor"]}
{"id": "C79", "title": "Runtimes may be added to a collector while it is scraped", "statement": "While any number of threads call add, add_current and collect_group_into of a NamedRuntimesCollector: every scrape that ends shows, the same in all families, exactly the runtimes whose addition took effect before its end, in order of addition and under their names; an addition that returns took effect once, between its start and its end; some call can always go on; and an add_current that panics because there is no runtime leaves the collector as it was.", "quantifier": "for all interleavings of any number of threads, all runtimes, names and encoders", "why_tests_cant": "All schedules; a panic at a bad moment.", "anchors": ["tokio/src/lib.rs: NamedRuntimesCollector"]}
{"id": "C80", "title": "The example server counts every request, once, under its own labels", "statement": "While any number of requests go through the middleware, are answered, given up, or collect the metrics themselves: no call panics, except with_labels if the interner is full of other paths. The text of a collection reads back as the three families with their names, help texts and types, no series twice. For every path and method http_requests shows a number of different requests with this path and method: all that had entered the service before the collection of the family began, none that had not begun before it ended; http_responses the same for path, method and status, with those whose middleware was over and those that were answered; http_request_duration the same with the count of the histogram, also for requests that were given up. A request that collects is in http_requests itself. Requests served one after the other are shown exactly. The shared encoder is left as new.", "quantifier": "for all interleavings of any number of requests, all paths, methods and status codes, up to 2^63 - 1 requests", "why_tests_cant": "Needs the whole path from the middleware to the text; all schedules; cancelled requests.", "anchors": ["examples/axum-server/src/metrics.rs", "examples/axum-server/src/main.rs"]}
{"id": "C81", "title": "Numbers are written by the shortest decimal that is read back", "statement": "The text that is written for a double is read back as this double by every reader that rounds decimal numbers correctly, with the sign of zero, infinities, and NaN as NaN; it is never the text of an integer and has no byte with another meaning in the text format. Numbers that differ have texts that differ. A finite number other than zero is written with at most 17 digits and with as few digits as any decimal number that rounds to it, and as the nearest of those. No text is longer than 24 bytes.", "quantifier": "for all 2^64 bit patterns and all correctly rounding readers", "why_tests_cant": "2^64 numbers; no test can show that there is no shorter text.", "anchors": ["core/src/text.rs: write_value, Visitor::write_float", "prometheus-proto/src/lib.rs: Visitor::write_float, LenVisitor::write_float", "core/Cargo.toml: ryu"]}
{"id": "C82", "title": "Labels of variants and constants of fields follow the words of their names", "statement": "A variant without discriminant and rename is shown as the words of its identifier in the case that rename_all names, lower case with underscores if there is none; words are cut at other characters, before a capital letter after a small one (digits in between aside), and before a capital letter after a capital one and directly before a small one. Two identifiers are shown alike exactly if their words are the same up to case (in the camel cases: once words starting with a digit are glued to the word before); so variants in the usual case of Rust always have different labels. A text in a case with a separator keeps its words. A struct compiles as a metric group exactly if its attributes are fine, its names are valid, start with a letter after any underscores and colons, and no two have the same words.", "quantifier": "for all ASCII identifiers, enums, values of rename_all and structs", "why_tests_cant": "All identifiers: acronyms, digits, underscores; clashes show up only between particular pairs.", "anchors": ["derive/src/value/attr.rs: RenameAll", "derive/src/value/to_tokens.rs", "derive/src/label_group/to_tokens.rs: constants", "derive/src/metric_group/to_tokens.rs: constants"]}
{"id": "C83", "title": "The example server has a bounded number of series", "statement": "The server has seven routes, and a path is an instance of at most one. A request for an instance of a route has the route's path as its label, whatever stands for the parameter; any other request has the label unknown. The status is the one a table of the routes says: for GET and HEAD as the decoded parameter is, for POST, and 405 or 404. With each of the eight values and each of the three methods only the statuses in a table of 45 lines can be answered, and each of them can be. So whatever is requested, and however often, a text of the metrics has at most 24 samples in http_requests, 45 in http_responses and 24 histograms of 19 samples in http_request_duration; and an interner with room for eight paths never makes a request panic. Any HTTP requests served one after the other are shown exactly, by route, method and status.", "quantifier": "for all HTTP requests (any path and method, any number), all interleavings of up to 2^63 - 1 requests", "why_tests_cant": "All paths that a client may send; a leak of series shows only after many different ones.", "anchors": ["examples/axum-server/src/main.rs", "examples/axum-server/src/metrics.rs: middleware"]}
{"id": "C84", "title": "A vector of histograms in use: observing and sampling are not single steps", "statement": "A sparse vector of histograms has locks at two levels, and observe and sample take many steps under both. Whatever any number of threads do with it, step by step, amounts to a run in which every observation is a single step between its beginning and its end. Every sample that a collection writes, and every histogram that remove_metric returns, is the one that a single thread gets from exactly the observations on the key that are over at that moment: none missing, none half recorded, none twice, though others are at work and guards are kept. Nothing panics. The text of a collection reads back as one family: every key shows the observations over at some moment of the collection, no key twice, none left out that was there all the time.", "quantifier": "for all interleavings of any number of threads, all keys, bounds and observations (not NaN in the text, and below 2^63 of them)", "why_tests_cant": "All schedules of two levels of locks.", "anchors": ["core/src/metric/histogram.rs: observe, observe_slow, sample", "core/src/metric/sparse.rs: get_metric, remove_metric, sample", "core/src/metric.rs: collect_family_into", "core/src/text.rs"]}
{"id": "C85", "title": "Nobody waits for ever on a vector of histograms", "statement": "Observers hold the lock of a shard while they wait for the lock of a histogram, and so does a collection. Still, threads that drop their guard before they start another operation on the vector are never all stuck: while an operation is in progress or a guard is kept some thread can take a step, even with locks that refuse readers while a writer waits, at both levels; and however they go on, after a bounded number of steps all lookups, observations, removals and collections are over and all guards dropped.", "quantifier": "for all interleavings of any number of threads, all keys, bounds and observations, from every reachable state", "why_tests_cant": "A deadlock between two levels of locks needs a particular schedule; termination of all schedules.", "anchors": ["core/src/metric/histogram.rs: observe, sample", "core/src/metric/sparse.rs: get_metric, remove_metric, sample", "core/src/metric.rs: collect_family_into"]}
{"id": "C86", "title": "A dense vector of histograms in use", "statement": "A dense vector has a lock for each histogram and none of its own; the histogram of a label is made at its first use. Whatever any number of threads do with it step by step, every sample that a collection writes is the one that a single thread gets from exactly the observations on the label that are over at that moment: none missing, none half recorded, none twice, even where the collecting thread has not heard of them. No observation panics. The text of a collection reads back as one family: every label shows the observations over at some moment of the collection, labels in order, none left out that the collecting thread knew to be in use when it began. If a call is not over, some thread can go on with its call, whatever guards are kept; and however they go on, after a bounded number of steps all calls are over.", "quantifier": "for all interleavings of any number of threads, all labels, bounds and observations (not NaN in the text, and below 2^63 of them)", "why_tests_cant": "All schedules; races of the first use with observing and collecting.", "anchors": ["core/src/metric/histogram.rs: observe, observe_slow, sample", "core/src/metric.rs: DenseMetric, get_metric, collect_family_into", "core/src/text.rs"]}
{"id": "C87", "title": "The three families of the example server agree with each other", "statement": "In a text that a request exports, every number is exactly how many requests had been counted at one moment while the vector was collected, and no metric is missing that was there before. So for every path and method: the responses of all statuses together are never more than the count of http_request_duration; they are not more than http_requests plus the requests that entered after the collection of http_requests began and were answered before that of http_responses ended, and there is a run where they really are more; http_requests is not more than the responses plus the requests not yet answered and over, or given up. From one export to a later one no sum goes down.", "quantifier": "for all interleavings of up to 2^63 - 1 requests, all paths, methods and statuses; for two exports, if the later begins to collect the vector when the earlier is done with it", "why_tests_cant": "All schedules of the requests around a collection; the vectors are collected one after the other, at different moments.", "anchors": ["examples/axum-server/src/metrics.rs: middleware, handler", "core/src/metric.rs: collect_family_into", "core/src/text.rs"]}
{"id": "C88", "title": "Exports of the example server share one encoder", "statement": "The handler for /metrics locks one encoder that all exports share, writes the three families into it while it goes through the shards and other requests go on, takes the text out and unlocks. From when a request gets the encoder until its text nobody else gets it. However many exports and other requests there are, step by step: every text reads back as the three families and nothing else, each of them collected after the request asked for the text, one after the other; it counts all requests over before that and none that began later; a metric that was there is not missing. No text has more responses than durations for a path and method, and from one text to the next no number of requests, responses or durations goes down. The handler never fails and never panics.", "quantifier": "for all interleavings of up to 2^63 - 1 requests and exports, all paths, methods and statuses", "why_tests_cant": "All schedules; a text that contains parts of another one shows only when exports overlap.", "anchors": ["examples/axum-server/src/metrics.rs: AppMetricsEncoder, handler", "core/src/metric.rs: collect_family_into", "core/src/text.rs"]}
{"id": "C89", "title": "Requests and exports of the example server always come to an end", "statement": "Requests hold read guards of shards, insert under write locks, and an export holds the async mutex while it waits for one shard after the other of three vectors. Still they never block each other for ever. In every state, some request can take a step by itself unless each has not begun, is over, was refused by the interner, or waits for the service inside to answer; also if read locks are refused while a writer waits. However the requests go on, they take a bounded number of steps without the environment, so they always get to such a state. There the mutex is free and the encoder empty, no shard is locked and no guard is left; every request that began is over unless the service inside has not answered or the interner refused its path; and whoever called the handler of /metrics and did not give up has its text and answered 200. While a request waits at an await (for the service inside, or for the mutex) it has no lock of a shard and no guard.", "quantifier": "for all interleavings of up to 2^63 - 1 requests and exports, from every reachable state, all shard counts", "why_tests_cant": "A deadlock between an async mutex and three maps of locked shards needs a particular schedule; termination of all schedules.", "anchors": ["examples/axum-server/src/metrics.rs: middleware, handler", "core/src/metric/sparse.rs: get_metric, sample", "core/src/metric.rs: collect_family_into"]}
{"id": "C90", "title": "The example server with its histograms step by step", "statement": "In the example server an observation takes many steps: finding the bucket, locking the histogram for reading, counting, adding to the sum in a loop; and so does a sample under its write lock. With the middleware, the exports, the three maps and all histograms step by step, the server does what it does if every duration is recorded, and every histogram sampled, in one step: each step stands for one such step or none, and the middleware and the handlers do the same. So every text that an export returns still reads back as the three families and nothing else, right for a moment between the call and the text each; the responses are never more than the counts of the durations; a later export never shows less; only one request at a time has the encoder; and no observation, sample or export panics.", "quantifier": "for all interleavings of up to 2^63 - 1 requests and exports, all paths, methods, statuses and durations", "why_tests_cant": "All schedules of five kinds of locks and a compare-exchange loop.", "anchors": ["examples/axum-server/src/metrics.rs: middleware, handler", "core/src/metric/histogram.rs: observe, observe_slow, sample", "core/src/metric/sparse.rs", "core/src/metric.rs: collect_family_into"]}
{"id": "C91", "title": "With its histograms step by step, the example server never gets stuck", "statement": "A request that observes its duration holds the lock of a shard while it waits for the lock of the histogram; an export holds the mutex and the lock of a shard while it waits for the same. Still, in every state some request can take a step by itself unless each has not begun, is over, was refused by the interner, or waits for the service inside; also if read locks are refused while a writer waits. However the requests go on, they take a bounded number of steps without the environment, the bound depending on the numbers of requests, shards and buckets only. Then the mutex is free and the encoder empty, nobody is on a histogram or holds a lock or guard, every request that began is over, waits for the service inside or was refused, and every export that was not given up has been answered with a text.", "quantifier": "for all interleavings of up to 2^63 - 1 requests and exports, from every reachable state, all shard counts", "why_tests_cant": "A deadlock between a mutex, three maps of locked shards and a lock for each histogram needs a particular schedule; termination of all schedules.", "anchors": ["examples/axum-server/src/metrics.rs: middleware, handler", "core/src/metric/histogram.rs: observe, observe_slow, sample", "core/src/metric/sparse.rs: get_metric, sample", "core/src/metric.rs: collect_family_into"]}
{"id": "C92", "title": "What the fields of a label group are called does not matter", "statement": "The decode function that derive(LabelGroup) writes binds a variable for every field, in the same block as its own variables index, index1, card and dynamic_index0, dynamic_index1, …. Whatever the fields of a struct are called, the generated code does not compile, or what is encoded is decoded to the same labels. It compiles exactly if no fixed field but the one declared first is called index, index1 or card, no fixed field is called like the id of a dynamic one, no dynamic field like the id of a later one, and the first fixed field is not called index, unless its type can be compared with numbers.", "quantifier": "for all structs, names, kinds of fields, label sets and ids", "why_tests_cant": "All names of fields in all positions; a test uses ordinary names.", "anchors": ["derive/src/label_group/to_tokens.rs: SetDecode, Set", "core/src/label/impls.rs"]}
{"id": "C93", "title": "A protobuf encoder whose writer fails", "statement": "The writer of a protobuf encoder may fail at any call, after accepting any part of what it was given. If collections and flushes are answered with Ok, the writer got exactly what a buffer would have got. After an error it got a prefix of that, and one of its calls did fail. However the writer fails and however often, the encoder does not panic. And the encoder can be used for the next scrape, as its documentation recommends, also after one that failed: what it writes then is what that scrape collected.", "quantifier": "for all call sequences, writers, failures and numbers of scrapes", "why_tests_cant": "All points of failure in all sequences; tests write to a buffer.", "anchors": ["prometheus-proto/src/lib.rs: ProtoEncoder::flush, ProtoEncoder::flush_buf"]}
{"id": "C94", "title": "A text encoder whose writer fails", "statement": "The writer of a text encoder may fail at any call, after accepting any part of what it was given. If the encoder returns an error, one of the calls of the writer failed, and the writer has accepted an initial part of the text that a buffer would have got, in which bytes between the braces of samples may be missing (C37); if only the last call failed, it is an initial part of that text itself. The encoder panics exactly in debug builds when the count of a histogram does not fit into 64 bits; failures of the writer never make it panic. After a flush the encoder is as good as new whatever happened before, so scrapes after one that failed are not affected; without the flush the only difference is one more line end before the next help or type line.", "quantifier": "for all call sequences, writers, failures and numbers of scrapes", "why_tests_cant": "All points of failure in all sequences; tests write to a buffer.", "anchors": ["core/src/text.rs: TextEncoder, write_metric_value, write_label_str_value, flush"]}
{"id": "C95", "title": "A flush leaves nothing in a buffered writer", "statement": "The writer of an encoder may keep what it accepts to itself, as std::io::BufWriter does, pass on any part of it at any time, and fail at any call, also when it is flushed. If a collection and the flush of the encoder are answered with Ok, the writer holds nothing back, and has passed on exactly what a buffer would have got (in text but for bytes of labels, if writing those failed, C37). If they are answered with an error, a call of the writer did fail, and what was passed on is an initial part of that. If no call of the writer fails, the encoder does not fail. After a flush of the text encoder it is as good as new even if the writer failed to flush.", "quantifier": "for all call sequences, states of the encoder, writers, buffering and failures", "why_tests_cant": "All ways to buffer and to fail; tests write to a buffer in memory, whose flush does nothing.", "anchors": ["core/src/text.rs: TextEncoder::flush", "prometheus-proto/src/lib.rs: ProtoEncoder::flush"]}
{"id": "C96", "title": "The buffered text encoder cannot fail", "statement": "BufferedTextEncoder returns no errors: it turns every error of the text encoder inside into unreachable!. That is never reached. In any session of calls and finishes, also one that goes on after a panic, each call returns Ok, but for one that writes a histogram whose counts overflow in a debug build, which panics; each finish returns exactly the text that a new TextEncoder over a Vec gets from the calls since the last finish; and a collection into it ends as one into a TextEncoder over a buffer.", "quantifier": "for all sequences of encoder calls and finishes", "why_tests_cant": "That a panic is unreachable is a statement on all calls and states of the encoder.", "anchors": ["core/src/text.rs: BufferedTextEncoder, Unreachable, BytesWriter"]}
{"id": "C97", "title": "The lock of a histogram makes up for relaxed atomics", "statement": "The counters of a histogram are changed with Relaxed instructions, which order nothing between cells or threads: a thread may not know what others did, and its loads may be stale. Observers hold the read lock, a sample is taken under the write lock, and the lock is all that carries knowledge from thread to thread (from those who released it to those who take the write lock, and from those who released the write lock to those who take the read lock). That is enough: a histogram in relaxed memory does nothing that it would not do if every cell had one value at any time. So each sample contains exactly the observations that are over, in buckets, inf and sum alike, later samples never show less, nothing panics, and the plain reads of sample are no data races.", "quantifier": "for all interleavings of any number of threads, all stale values that loads may return, all thresholds", "why_tests_cant": "Stale values appear on other hardware, or not at all under a test; all interleavings.", "anchors": ["core/src/metric/histogram.rs: HistogramStateInner::observe, sample, HistogramLockGuard::observe", "core/src/metric/gauge.rs: AtomicF64::inc_by", "core/src/text.rs: collect_into of HistogramState"]}
{"id": "C98", "title": "What an id of a different vector does", "statement": "A label id is typed by its label set, not by the vector it came from, so that a program can pass it to a different vector; the documentation says that this can panic or cause strange behaviour. Exactly this happens. A dense vector looks at the number of the id alone: within the cardinality, access acts on the one group with this index and changes no other sample, otherwise it panics and changes nothing; removal does nothing. A sparse vector never panics on access: if the hash is the one its own key has here, access acts on the one group that this vector gave the key to; if the number picks another shard (ids of a dense vector), a group without a metric gets one that ordinary access does not find, and after an ordinary access a collection shows the group twice; if the key is unknown to the interners here, no later collection succeeds. In the latter two cases removal through the same id undoes it exactly.", "quantifier": "for all ids, vectors, label sets, hash functions and programs before", "why_tests_cant": "All ids in all reachable vectors; tests use ids where they belong.", "anchors": ["core/src/metric.rs: get_metric, get_metric_mut, remove_metric, LabelId", "core/src/metric/sparse.rs: get_metric, get_metric_mut, remove_metric"]}
{"id": "C99", "title": "The locks of a sparse vector make up for relaxed atomics", "statement": "Metrics in a sparse vector are updated with Relaxed instructions under a read lock; loads may be stale, and growth of the table and removal move metrics with plain reads. The locks (and what threads do outside of the vector to synchronise) are all that carries knowledge. That is enough: no update is lost or doubled when tables grow or metrics are removed, remove_metric returns exactly all updates, nobody uses a metric that is not initialised, plain reads are no data races, and get_metric never panics. A collection shows some first part of the updates of each metric, in their one order, which has all updates of the collecting thread, of the threads it is synchronised with, and all it saw before; with a lock like that of parking_lot also all whose guard was dropped before the collection locked the shard.", "quantifier": "for all interleavings of any number of threads and keys, all stale values that loads may return", "why_tests_cant": "Stale reads do not show on x86, and a lost update at the growth of a table is a matter of chance.", "anchors": ["core/src/metric/sparse.rs: get_metric, remove_metric", "core/src/metric.rs: collect_family_into", "core/src/metric/counter.rs: inc_by"]}
