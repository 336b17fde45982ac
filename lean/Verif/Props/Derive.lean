import Verif.Proof.Derive
import Verif.Props.Group

/-! # Properties of the derive macros (C58–C62) -/

namespace Measured
open Measured.Spec Measured.Derive

variable {E P : Type}

/-! ## Attributes -/

theorem startsWith_mkInit (dflt : E) (attrs : List (MetricAttr E)) :
    StartsWith dflt attrs (initExpr dflt (metricMeaning attrs).init) := by
  have m1 : ∀ (f : MetricArg E → Option E) e, e ∈ (metricArgs attrs).filterMap f ↔ ∃ a ∈ metricArgs attrs, f a = some e :=
    fun f e => List.mem_filterMap
  have mi : ∀ e, e ∈ (metricArgs attrs).filterMap initArg ↔ .init e ∈ metricArgs attrs := fun e => by
    rw [m1]
    exact ⟨fun ⟨a, ha, h⟩ => by cases a <;> simp [initArg] at h; subst h; exact ha, fun h => ⟨_, h, rfl⟩⟩
  have mm : ∀ e, e ∈ (metricArgs attrs).filterMap metadataArg ↔ .metadata e ∈ metricArgs attrs := fun e => by
    rw [m1]
    exact ⟨fun ⟨a, ha, h⟩ => by cases a <;> simp [metadataArg] at h; subst h; exact ha, fun h => ⟨_, h, rfl⟩⟩
  have ml : ∀ e, e ∈ (metricArgs attrs).filterMap labelSetArg ↔ .labelSet e ∈ metricArgs attrs := fun e => by
    rw [m1]
    exact ⟨fun ⟨a, ha, h⟩ => by cases a <;> simp [labelSetArg] at h; subst h; exact ha, fun h => ⟨_, h, rfl⟩⟩
  simp only [metricMeaning]
  cases hi : (metricArgs attrs).filterMap initArg with
  | cons e es => exact .raw ((mi e).1 (by simp [hi]))
  | nil =>
    have ni : ∀ e, .init e ∉ metricArgs attrs := fun e he => by
      have := (mi e).2 he
      simp [hi] at this
    cases hm : (metricArgs attrs).filterMap metadataArg with
    | nil =>
      have nm : ∀ e, .metadata e ∉ metricArgs attrs := fun e he => by
        have := (mm e).2 he
        simp [hm] at this
      cases hl : (metricArgs attrs).filterMap labelSetArg with
      | nil =>
        have nl : ∀ e, .labelSet e ∉ metricArgs attrs := fun e he => by
          have := (ml e).2 he
          simp [hl] at this
        exact .default ni nm nl
      | cons l ls => exact .labelSet ((ml l).1 (by simp [hl])) nm
    | cons d ds =>
      have hd := (mm d).1 (by simp [hm])
      cases hl : (metricArgs attrs).filterMap labelSetArg with
      | nil =>
        have nl : ∀ e, .labelSet e ∉ metricArgs attrs := fun e he => by
          have := (ml e).2 he
          simp [hl] at this
        exact .metadata hd nl
      | cons l ls => exact .both ((ml l).1 (by simp [hl])) hd

theorem unique_of_le_one {α β : Type} {l : List α} {f : α → Option β} (h : (l.filterMap f).length ≤ 1) {a b : α} {x y : β}
    (ha : a ∈ l) (hb : b ∈ l) (hx : f a = some x) (hy : f b = some y) : x = y := by
  have h1 : x ∈ l.filterMap f := List.mem_filterMap.2 ⟨a, ha, hx⟩
  have h2 : y ∈ l.filterMap f := List.mem_filterMap.2 ⟨b, hb, hy⟩
  rw [head_of_le_one h] at h1 h2
  simp only [Option.mem_toList] at h1 h2
  rw [h1] at h2
  exact Option.some.inj h2

/-- C58, `#[derive(MetricGroup)]`: the attributes of a field are accepted exactly when they do not contradict each other.
If they are, the kind is the one given, the doc comment is that of all `doc` attributes together, and `new()` starts the
field with the one expression that the attributes call for. -/
theorem C58_metric_attrs (attrs : List (MetricAttr E)) :
    ((parseMetricField attrs).isSome ↔ MetricAttrsOk attrs) ∧
    ∀ a, parseMetricField attrs = some a → a.kind = metricKindOf attrs ∧ a.docs = docOf attrs ∧
      ∀ dflt e, StartsWith dflt attrs e ↔ e = initExpr dflt a.init := by
  refine ⟨?_, fun a ha => ?_⟩
  · rw [Option.isSome_iff_exists]
    exact ⟨fun ⟨a, h⟩ => ((parseMetricField_iff attrs a).1 h).1, fun h => ⟨_, (parseMetricField_iff attrs _).2 ⟨h, rfl⟩⟩⟩
  · obtain ⟨hok, rfl⟩ := (parseMetricField_iff attrs a).1 ha
    refine ⟨rfl, rfl, fun dflt e => ⟨fun h => ?_, fun h => h ▸ startsWith_mkInit dflt attrs⟩⟩
    have h' := startsWith_mkInit dflt attrs
    generalize initExpr dflt (metricMeaning attrs).init = e' at h'
    have ui : ∀ {x y}, .init x ∈ metricArgs attrs → .init y ∈ metricArgs attrs → x = y :=
      fun hx hy => unique_of_le_one hok.init hx hy rfl rfl
    have um : ∀ {x y}, .metadata x ∈ metricArgs attrs → .metadata y ∈ metricArgs attrs → x = y :=
      fun hx hy => unique_of_le_one hok.metadata hx hy rfl rfl
    have ul : ∀ {x y}, .labelSet x ∈ metricArgs attrs → .labelSet y ∈ metricArgs attrs → x = y :=
      fun hx hy => unique_of_le_one hok.labelSet hx hy rfl rfl
    have xm : ∀ {x y}, .init x ∈ metricArgs attrs → .metadata y ∈ metricArgs attrs → False := fun hx hy => by
      have h1 : _ ∈ (metricArgs attrs).filterMap initArg := List.mem_filterMap.2 ⟨_, hx, rfl⟩
      have h2 : _ ∈ (metricArgs attrs).filterMap metadataArg := List.mem_filterMap.2 ⟨_, hy, rfl⟩
      rw [(hok.exclusive (List.ne_nil_of_mem h1)).1] at h2
      cases h2
    have xl : ∀ {x y}, .init x ∈ metricArgs attrs → .labelSet y ∈ metricArgs attrs → False := fun hx hy => by
      have h1 : _ ∈ (metricArgs attrs).filterMap initArg := List.mem_filterMap.2 ⟨_, hx, rfl⟩
      have h2 : _ ∈ (metricArgs attrs).filterMap labelSetArg := List.mem_filterMap.2 ⟨_, hy, rfl⟩
      rw [(hok.exclusive (List.ne_nil_of_mem h1)).2] at h2
      cases h2
    cases h with
    | raw h1 =>
      cases h' with
      | raw h2 => rw [ui h1 h2]
      | both h2 _ => exact (xl h1 h2).elim
      | labelSet h2 _ => exact (xl h1 h2).elim
      | metadata h2 _ => exact (xm h1 h2).elim
      | default h2 _ _ => exact absurd h1 (h2 _)
    | both h1 h1' =>
      cases h' with
      | raw h2 => exact (xl h2 h1).elim
      | both h2 h2' => rw [ul h1 h2, um h1' h2']
      | labelSet h2 h2' => exact absurd h1' (h2' _)
      | metadata h2 h2' => exact absurd h1 (h2' _)
      | default _ h2 _ => exact absurd h1' (h2 _)
    | labelSet h1 h1' =>
      cases h' with
      | raw h2 => exact (xl h2 h1).elim
      | both h2 h2' => exact absurd h2' (h1' _)
      | labelSet h2 h2' => rw [ul h1 h2]
      | metadata h2 h2' => exact absurd h1 (h2' _)
      | default _ _ h2 => exact absurd h1 (h2 _)
    | metadata h1 h1' =>
      cases h' with
      | raw h2 => exact (xm h2 h1).elim
      | both h2 h2' => exact absurd h2 (h1' _)
      | labelSet h2 h2' => exact absurd h2 (h1' _)
      | metadata h2 h2' => rw [um h1 h2]
      | default _ h2 _ => exact absurd h1 (h2 _)
    | default h1 h1' h1'' =>
      cases h' with
      | raw h2 => exact absurd h2 (h1 _)
      | both h2 h2' => exact absurd h2' (h1' _)
      | labelSet h2 h2' => exact absurd h2 (h1'' _)
      | metadata h2 h2' => exact absurd h2 (h1' _)
      | default _ _ _ => rfl

theorem perm_le_one {α : Type} {l r : List α} (h : l.Perm r) (h1 : l.length ≤ 1) : l = r := by
  match l, h1 with
  | [], _ => exact (h.nil_eq)
  | [a], _ => exact (List.perm_singleton.1 h.symm).symm

/-- C58: the order of the arguments, and how they are distributed over attributes, does not matter; only doc comments
have an order. -/
theorem C58_order {attrs attrs' : List (MetricAttr E)} (h : (metricArgs attrs).Perm (metricArgs attrs'))
    (hd : docAttrs attrs = docAttrs attrs') : parseMetricField attrs = parseMetricField attrs' := by
  have pk := h.filterMap kindArg
  have pi := h.filterMap initArg
  have pm := h.filterMap metadataArg
  have pl := h.filterMap labelSetArg
  have ok : ∀ {x y : List (MetricAttr E)}, (metricArgs x).Perm (metricArgs y) → docAttrs x = docAttrs y →
      MetricAttrsOk x → MetricAttrsOk y := by
    intro x y h hd hok
    refine ⟨fun hb => hok.known (h.mem_iff.2 hb), hd ▸ hok.docs, ?_, ?_, ?_, ?_, fun hi => ?_⟩
    · rw [← (h.filterMap kindArg).length_eq]; exact hok.kind
    · rw [← (h.filterMap initArg).length_eq]; exact hok.init
    · rw [← (h.filterMap metadataArg).length_eq]; exact hok.metadata
    · rw [← (h.filterMap labelSetArg).length_eq]; exact hok.labelSet
    · have := hok.exclusive fun e => hi (by
        have hp := h.filterMap initArg
        rw [e] at hp
        exact hp.nil_eq.symm)
      refine ⟨?_, ?_⟩
      · have hp := h.filterMap metadataArg
        rw [this.1] at hp
        exact hp.nil_eq.symm
      · have hp := h.filterMap labelSetArg
        rw [this.2] at hp
        exact hp.nil_eq.symm
  have mean : MetricAttrsOk attrs → metricMeaning attrs = metricMeaning attrs' := by
    intro hok
    unfold metricMeaning metricKindOf docOf
    rw [perm_le_one pk hok.kind, perm_le_one pi hok.init, perm_le_one pm hok.metadata, perm_le_one pl hok.labelSet, hd]
  apply Option.ext
  intro a
  rw [parseMetricField_iff, parseMetricField_iff]
  constructor
  · rintro ⟨hok, rfl⟩
    exact ⟨ok h hd hok, mean hok⟩
  · rintro ⟨hok, rfl⟩
    have := ok h.symm hd.symm hok
    exact ⟨this, (mean this).symm⟩

/-- C58, `#[derive(LabelGroup)]`: accepted are exactly attributes with at most one kind, one `default` and one `rename`; the
kind is `fixed` unless given, and `fixed` implies `default`. -/
theorem C58_label_attrs (attrs : List (Option (List (LabelArg P)))) :
    ((parseLabelField attrs).isSome ↔ LabelAttrsOk attrs) ∧
    ∀ a, parseLabelField attrs = some a →
      (.fixed ∈ labelArgs attrs → a.kind = .fixed) ∧
      (∀ p, .fixedWith p ∈ labelArgs attrs → a.kind = .fixedWith p) ∧
      (∀ p, .dynamicWith p ∈ labelArgs attrs → a.kind = .dynamicWith p) ∧
      ((∀ x ∈ labelArgs attrs, labelKindArg x = none) → a.kind = .fixed) ∧
      (a.default = true ↔ .default ∈ labelArgs attrs ∨ a.kind = .fixed) ∧
      (∀ s, a.rename = some s ↔ .rename s ∈ labelArgs attrs) := by
  refine ⟨?_, fun a ha => ?_⟩
  · rw [Option.isSome_iff_exists]
    refine ⟨fun ⟨a, h⟩ => ((parseLabelField_iff attrs a).1 h).1, fun h => ?_⟩
    by_cases hd : .default ∈ labelArgs attrs ∨ ((labelArgs attrs).filterMap labelKindArg).head?.getD .fixed = .fixed
    · exact ⟨⟨_, true, _⟩, (parseLabelField_iff attrs _).2 ⟨h, rfl, iff_of_true rfl hd, rfl⟩⟩
    · exact ⟨⟨_, false, _⟩, (parseLabelField_iff attrs _).2 ⟨h, rfl, iff_of_false Bool.false_ne_true hd, rfl⟩⟩
  · obtain ⟨hok, hk, hd, hr⟩ := (parseLabelField_iff attrs a).1 ha
    have hk' : ∀ {x k}, x ∈ labelArgs attrs → labelKindArg x = some k → a.kind = k := by
      intro x k hx hxk
      have hm : k ∈ (labelArgs attrs).filterMap labelKindArg := List.mem_filterMap.2 ⟨x, hx, hxk⟩
      rw [head_of_le_one hok.kind, Option.mem_toList] at hm
      rw [hk, hm]; rfl
    refine ⟨fun h => hk' h rfl, fun p h => hk' h rfl, fun p h => hk' h rfl, fun h => ?_, hd, fun s => ?_⟩
    · rw [hk, List.filterMap_eq_nil_iff.2 h]; rfl
    · rw [hr]
      constructor
      · intro h
        obtain ⟨x, hx, hxs⟩ := List.mem_filterMap.1 (List.mem_of_head? h)
        cases x <;> simp [labelRenameArg] at hxs
        subst hxs
        exact hx
      · intro h
        have hm : s ∈ (labelArgs attrs).filterMap labelRenameArg := List.mem_filterMap.2 ⟨_, h, rfl⟩
        rw [head_of_le_one hok.rename, Option.mem_toList] at hm
        exact hm

/-- C58, `#[derive(FixedCardinalityLabel)]`: accepted are exactly lists of arguments separated by single commas, without
one at the end, each argument at most once over all attributes, and `rename_all` with one of the eight documented
names. -/
theorem C58_enum_attrs (attrs : List (List (EnumTok P))) (a : EnumAttrs P) :
    (⟨none, none, none⟩ : EnumAttrs P).parseAttrs attrs = some a ↔
      ∃ argss : List (List (EnumArg P)), attrs = argss.map writtenArgs ∧ EnumArgsOk argss.flatten ∧
        (∀ p, a.krate = some p ↔ .krate p ∈ argss.flatten) ∧
        (∀ s, a.singleton = some s ↔ .singleton s ∈ argss.flatten) ∧
        (∀ c, a.renameAll = some c ↔ ∃ s, (s, c) ∈ caseNames ∧ .renameAll s ∈ argss.flatten) := by
  have hmem : ∀ {α : Type} {l : List (EnumArg P)} {f : EnumArg P → Option α} (_ : (l.filterMap f).length ≤ 1) (x : α),
      (l.filterMap f).head? = some x ↔ ∃ y ∈ l, f y = some x := by
    intro α l f h x
    rw [← List.mem_filterMap, ← Option.mem_toList, ← head_of_le_one h]
  have km : ∀ (l : List (EnumArg P)) p, (∃ y ∈ l, krateArg y = some p) ↔ .krate p ∈ l := fun l p =>
    ⟨fun ⟨y, hy, h⟩ => by cases y <;> simp [krateArg] at h; subst h; exact hy, fun h => ⟨_, h, rfl⟩⟩
  have sm : ∀ (l : List (EnumArg P)) p, (∃ y ∈ l, singletonArg y = some p) ↔ .singleton p ∈ l := fun l p =>
    ⟨fun ⟨y, hy, h⟩ => by cases y <;> simp [singletonArg] at h; subst h; exact hy, fun h => ⟨_, h, rfl⟩⟩
  have rm : ∀ (l : List (EnumArg P)) p, (∃ y ∈ l, renameAllArg y = some p) ↔ .renameAll p ∈ l := fun l p =>
    ⟨fun ⟨y, hy, h⟩ => by cases y <;> simp [renameAllArg] at h; subst h; exact hy, fun h => ⟨_, h, rfl⟩⟩
  have spec : ∀ {l : List (EnumArg P)}, EnumArgsOk l →
      ((a.krate = (l.filterMap krateArg).head? ∧ a.singleton = (l.filterMap singletonArg).head? ∧
        a.renameAll = (l.filterMap renameAllArg).head?.bind parseRenameAll) ↔
      ((∀ p, a.krate = some p ↔ .krate p ∈ l) ∧ (∀ s, a.singleton = some s ↔ .singleton s ∈ l) ∧
        (∀ c, a.renameAll = some c ↔ ∃ s, (s, c) ∈ caseNames ∧ .renameAll s ∈ l))) := by
    intro l ok
    have e1 : a.krate = (l.filterMap krateArg).head? ↔ ∀ p, a.krate = some p ↔ .krate p ∈ l := by
      rw [Option.ext_iff]
      exact forall_congr' fun p => by rw [hmem ok.krate, km]
    have e2 : a.singleton = (l.filterMap singletonArg).head? ↔ ∀ p, a.singleton = some p ↔ .singleton p ∈ l := by
      rw [Option.ext_iff]
      exact forall_congr' fun p => by rw [hmem ok.singleton, sm]
    have e3 : a.renameAll = (l.filterMap renameAllArg).head?.bind parseRenameAll ↔
        ∀ c, a.renameAll = some c ↔ ∃ s, (s, c) ∈ caseNames ∧ .renameAll s ∈ l := by
      rw [Option.ext_iff]
      refine forall_congr' fun c => ?_
      rw [Option.bind_eq_some_iff]
      have : (∃ s, (l.filterMap renameAllArg).head? = some s ∧ parseRenameAll s = some c) ↔
          ∃ s, (s, c) ∈ caseNames ∧ .renameAll s ∈ l :=
        exists_congr fun s => by rw [hmem ok.renameAll, rm, parseRenameAll_iff, and_comm]
      rw [this]
    rw [e1, e2, e3]
  rw [parseAttrs_iff]
  refine exists_congr fun argss => and_congr_right fun _ => ?_
  rw [argFold_iff]
  exact and_congr_right fun ok => spec ok

/-! ### Examples -/

/-- `#[metric(rename = "errs", label_set = S)] /// a` and `/// b` `#[metric(metadata = M)]` -/
def exAttrs : List (MetricAttr String) :=
  [.metric [.rename b!"errs", .labelSet "S"], .doc (some [' ', 'a']), .other, .doc (some [' ', 'b']),
   .metric [.metadata "M"]]

example : parseMetricField exAttrs =
    some ⟨.metric (some b!"errs"), some [' ', 'a', ' ', 'b'], some (.metric (some "M") (some "S"))⟩ := by decide

example : MetricAttrsOk exAttrs ∧ StartsWith "Default::default()" exAttrs (.withLabelSetAndMetadata "S" "M") :=
  ⟨((C58_metric_attrs exAttrs).1).1 rfl, .both (by decide) (by decide)⟩

/-- An `init` beside a `metadata`, and a `#[doc(hidden)]`, do not compile. -/
example : ¬ MetricAttrsOk [.metric [.metadata "M", .init "x"]] ∧ ¬ MetricAttrsOk (E := String) [.doc none] :=
  ⟨fun h => by simpa [parseMetricField, MetricState.attrList, MetricState.attr, MetricState.argList, MetricState.arg] using (C58_metric_attrs _).1.2 h, fun h => by
    simpa [parseMetricField, MetricState.attrList, MetricState.attr] using (C58_metric_attrs _).1.2 h⟩

example : (metricArgs exAttrs).Perm (metricArgs [.metric [.metadata "M", .labelSet "S", .rename b!"errs"]]) := by decide

example : parseLabelField [none, some [.dynamicWith "Rodeo"], some [.rename b!"user", .default]] =
    some ⟨.dynamicWith "Rodeo", true, some b!"user"⟩ := by decide

example : parseLabelField (P := String) [some [.rename b!"user"]] = some ⟨.fixed, true, some b!"user"⟩ := by decide

/-- `#[label(rename_all = "kebab-case", singleton = "kind")] #[label(crate = crate)]` -/
example : (⟨none, none, none⟩ : EnumAttrs String).parseAttrs
    [writtenArgs [.renameAll b!"kebab-case", .singleton b!"kind"], writtenArgs [.krate "crate"]] =
      some ⟨some "crate", some .kebab, some b!"kind"⟩ := by decide

/-- `#[label(singleton = "kind",)]` does not compile. -/
example : (⟨none, none, none⟩ : EnumAttrs String).parseAttrs [[.arg (.singleton b!"kind"), .comma]] = none := by decide

/-! ## Metric groups -/

namespace Spec

/-- The name of a metric field; `none` for `namespace` and `flatten` fields. -/
def fieldName (fd : MetricField E) : Option Bytes :=
  match metricKindOf fd.attrs with
  | .metric r => some (r.getD fd.ident)
  | .group _ => none

/-- A metric field holds a family, a `namespace` or `flatten` field a group. -/
def MemberFits (fd : MetricField E) : Member → Prop
  | .fam _ => (fieldName fd).isSome
  | .group _ => fieldName fd = none

/-- The struct compiles. -/
structure Compiles (shout : Bytes → Option Bytes) (fields : List (MetricField E × Member)) : Prop where
  attrs : ∀ p ∈ fields, MetricAttrsOk p.1.attrs
  fits : ∀ p ∈ fields, MemberFits p.1 p.2
  valid : ∀ p ∈ fields, ∀ n, fieldName p.1 = some n → MetricNameRe n ∧ (shout n).isSome
  distinct : ((fields.filterMap fun p => fieldName p.1).map shout).Nodup

end Spec

def parsedField (p : MetricField E × Member) : Bytes × MetricFieldAttrs E × Member :=
  (p.1.ident, metricMeaning p.1.attrs, p.2)

theorem parseFields_iff (fields : List (MetricField E × Member)) (l : List (Bytes × MetricFieldAttrs E × Member)) :
    parseFields fields = some l ↔ (∀ p ∈ fields, MetricAttrsOk p.1.attrs) ∧ l = fields.map parsedField := by
  induction fields generalizing l with
  | nil => simp [parseFields, eq_comm]
  | cons p rest ih =>
    obtain ⟨f, x⟩ := p
    simp only [parseFields, Option.bind_eq_some_iff, Option.map_eq_some_iff, List.forall_mem_cons, List.map_cons]
    constructor
    · rintro ⟨a, ha, r, hr, rfl⟩
      obtain ⟨h1, rfl⟩ := (parseMetricField_iff _ _).1 ha
      obtain ⟨h2, rfl⟩ := (ih r).1 hr
      exact ⟨⟨h1, h2⟩, rfl⟩
    · rintro ⟨⟨h1, h2⟩, rfl⟩
      exact ⟨_, (parseMetricField_iff _ _).2 ⟨h1, rfl⟩, _, (ih _).2 ⟨h2, rfl⟩, rfl⟩

theorem metricName_parsed (p : MetricField E × Member) :
    metricName (parsedField p).1 (parsedField p).2.1.kind = fieldName p.1 := by
  obtain ⟨f, x⟩ := p
  simp only [parsedField, metricMeaning, metricName, fieldName]
  rfl

/-- The fields compile if every member fits, and then give the items of each. -/
theorem visits_spec (fields : List (MetricField E × Member)) :
    ((visits (fields.map parsedField)).isSome ↔ ∀ p ∈ fields, MemberFits p.1 p.2) ∧
    ∀ fs, visits (fields.map parsedField) = some fs →
      ∃ itss : List (List Item), List.Forall₂ (fun p its => FieldItems p.1 p.2 its) fields itss ∧ itemsF fs = itss.flatten := by
  induction fields with
  | nil => exact ⟨by simp [visits], fun fs h => by
      obtain rfl : Fields.nil = fs := Option.some.inj h
      exact ⟨[], .nil, rfl⟩⟩
  | cons p rest ih =>
    obtain ⟨fd, x⟩ := p
    have kmem : ∀ k, metricKindOf fd.attrs = k → k ≠ .metric none → k ∈ (metricArgs fd.attrs).filterMap kindArg := by
      intro k hk hne
      simp only [metricKindOf] at hk
      cases hh : ((metricArgs fd.attrs).filterMap kindArg).head? with
      | none => rw [hh] at hk; exact (hne hk.symm).elim
      | some k' =>
        rw [hh] at hk
        obtain rfl : k' = k := hk
        exact List.mem_of_head? hh
    have hplain : metricKindOf fd.attrs = .metric none → (metricArgs fd.attrs).filterMap kindArg = [] := by
      intro hk
      cases hl : (metricArgs fd.attrs).filterMap kindArg with
      | nil => rfl
      | cons k ks =>
        simp only [metricKindOf, hl, List.head?_cons, Option.getD_some] at hk
        have : k ∈ (metricArgs fd.attrs).filterMap kindArg := by simp [hl]
        obtain ⟨a, -, ha⟩ := List.mem_filterMap.1 this
        rw [hk] at ha
        cases a <;> simp [kindArg] at ha
    have hd : (metricMeaning fd.attrs).docs = docOf fd.attrs := rfl
    have hkind : (metricMeaning fd.attrs).kind = metricKindOf fd.attrs := rfl
    simp only [List.map_cons, List.forall_mem_cons]
    have hv : visits (parsedField (fd, x) :: rest.map parsedField) =
        (visits (rest.map parsedField)).bind fun fs =>
          match metricKindOf fd.attrs, x with
          | .metric rename, .fam f => some (.metric (rename.getD fd.ident) (docOf fd.attrs).toList f fs)
          | .group none, .group g => some (.flatten g fs)
          | .group (some ns), .group g => some (.namespaced ns g fs)
          | _, _ => none := rfl
    rw [hv]
    constructor
    · rw [Option.isSome_bind, ← ih.1]
      cases hr : visits (rest.map parsedField) with
      | none => simp
      | some fs =>
        cases hk : metricKindOf fd.attrs with
        | metric r => cases x <;> simp [MemberFits, fieldName, hk]
        | group ns => cases x <;> cases ns <;> simp [MemberFits, fieldName, hk]
    · intro fs' h'
      obtain ⟨fs, hr, h⟩ := Option.bind_eq_some_iff.1 h'
      obtain ⟨itss, hall, hit⟩ := ih.2 fs hr
      cases hk : metricKindOf fd.attrs with
      | metric r =>
        cases x with
        | group g => simp [hk] at h
        | fam f =>
          simp only [hk, Option.some.injEq] at h
          subst h
          refine ⟨[.field [] (r.getD fd.ident) (docOf fd.attrs).toList f] :: itss, .cons ?_ hall, by rw [itemsF, hit]; rfl⟩
          cases r with
          | none => exact .plain (hplain hk)
          | some s =>
            obtain ⟨a, ha, hka⟩ := List.mem_filterMap.1 (kmem _ hk (by simp))
            cases a <;> simp [kindArg] at hka
            subst hka
            exact .renamed ha
      | group ns =>
        cases x with
        | fam f => cases ns <;> simp [hk] at h
        | group g =>
          obtain ⟨a, ha, hka⟩ := List.mem_filterMap.1 (kmem _ hk (by simp))
          cases ns with
          | none =>
            simp only [hk, Option.some.injEq] at h
            subst h
            cases a <;> simp [kindArg] at hka
            exact ⟨_ :: itss, .cons (.flatten ha) hall, by rw [itemsF, hit]; rfl⟩
          | some s =>
            simp only [hk, Option.some.injEq] at h
            subst h
            cases a <;> simp [kindArg] at hka
            subst hka
            exact ⟨_ :: itss, .cons (.namespaced ha) hall, by rw [itemsF, hit]; rfl⟩

/-- C59: a struct compiles exactly when the attributes of each field do not contradict each other, each field has a type that
fits its kind, and its metric names are valid and do not clash. -/
theorem C59_compiles (shout : Bytes → Option Bytes) (fields : List (MetricField E × Member)) :
    (deriveMetricGroup shout fields).isSome ↔ Compiles shout fields := by
  have hnames : (fields.map parsedField).filterMap (fun p => metricName p.1 p.2.1.kind) =
      fields.filterMap fun p => fieldName p.1 := by
    rw [List.filterMap_map]
    exact List.filterMap_congr fun p _ => metricName_parsed p
  have hconst : constsCompile shout (fields.filterMap fun p => fieldName p.1) = true ↔
      ((fields.filterMap fun p => fieldName p.1).map shout).Nodup ∧
      ∀ p ∈ fields, ∀ n, fieldName p.1 = some n → MetricNameRe n ∧ (shout n).isSome := by
    simp only [constsCompile, Bool.and_eq_true, decide_eq_true_eq, List.all_eq_true, List.mem_filterMap, beq_iff_eq]
    refine and_congr_right fun _ => ⟨fun h p hp n hn => ?_, fun h n ⟨p, hp, hn⟩ => ?_⟩
    · have := h n ⟨p, hp, hn⟩
      exact ⟨(C38_from_str n).1.1 this.2, this.1⟩
    · have := h p hp n hn
      exact ⟨this.2, (C38_from_str n).1.2 this.1⟩
  constructor
  · intro h
    obtain ⟨g, hg⟩ := Option.isSome_iff_exists.1 h
    obtain ⟨l, hl, h2⟩ := Option.bind_eq_some_iff.1 hg
    obtain ⟨hok, rfl⟩ := (parseFields_iff _ _).1 hl
    rw [hnames] at h2
    split at h2
    · next hc =>
      obtain ⟨fs, hfs, -⟩ := Option.map_eq_some_iff.1 h2
      have := hconst.1 hc
      exact ⟨hok, (visits_spec fields).1.1 (by rw [hfs]; rfl), this.2, this.1⟩
    · cases h2
  · rintro ⟨hok, hfit, hval, hdist⟩
    obtain ⟨fs, hfs⟩ := Option.isSome_iff_exists.1 ((visits_spec fields).1.2 hfit)
    refine Option.isSome_iff_exists.2 ⟨.derived fs, Option.bind_eq_some_iff.2
      ⟨_, (parseFields_iff _ _).2 ⟨hok, rfl⟩, ?_⟩⟩
    rw [hnames, if_pos (hconst.2 ⟨hdist, hval⟩), hfs]
    rfl

/-- C59: a derived group consists of what its fields contribute, in the order of declaration. A metric field contributes
its family under its `rename`, or else its own name, with its doc comment; a `flatten` field the items of its group; a
`namespace` field the items of its group inside the namespace. (C41 says which calls a list of items makes.) -/
theorem C59_items {shout : Bytes → Option Bytes} {fields : List (MetricField E × Member)} {g : Group}
    (h : deriveMetricGroup shout fields = some g) :
    ∃ itss : List (List Item), List.Forall₂ (fun p its => FieldItems p.1 p.2 its) fields itss ∧ items g = itss.flatten := by
  obtain ⟨l, hl, h2⟩ := Option.bind_eq_some_iff.1 h
  obtain ⟨hok, rfl⟩ := (parseFields_iff _ _).1 hl
  split at h2
  · obtain ⟨fs, hfs, rfl⟩ := Option.map_eq_some_iff.1 h2
    obtain ⟨itss, h1, h2⟩ := (visits_spec fields).2 fs hfs
    exact ⟨itss, h1, by rw [items, h2]⟩
  · cases h2

/-! ### Example: a struct with every kind of field -/

def exInner : List (MetricField String × Member) :=
  [(⟨b!"errors", []⟩, .fam (.metric (.counter 7)))]

/-- ```
struct Metrics {
    /// help
    #[metric(metadata = M)] requests: Counter,
    #[metric(rename = "errs")] e: Counter,
    #[metric(namespace = "http")] http: Inner,
    #[metric(flatten)] more: Inner,
}
``` -/
def exMetrics : List (MetricField String × Member) :=
  [(⟨b!"requests", [.doc (some [' ', 'h']), .metric [.metadata "M"]]⟩, .fam (.metric (.counter 1))),
   (⟨b!"e", [.metric [.rename b!"errs"]]⟩, .fam (.metric (.counter 2))),
   (⟨b!"http", [.metric [.namespaced b!"http"]]⟩, .group (.derived (.metric b!"errors" [] (.metric (.counter 7)) .nil))),
   (⟨b!"more", [.metric [.flatten]]⟩, .group (.derived (.metric b!"errors" [] (.metric (.counter 7)) .nil)))]

/-- ASCII upper case. -/
def exShout (s : Bytes) : Option Bytes := some (s.map fun b => if 97 ≤ b ∧ b ≤ 122 then b - 32 else b)

example : ∃ g, deriveMetricGroup exShout exMetrics = some g ∧ items g =
    [.field [] b!"requests" [[' ', 'h']] (.metric (.counter 1)), .field [] b!"errs" [] (.metric (.counter 2)),
     .field [b!"http"] b!"errors" [] (.metric (.counter 7)), .field [] b!"errors" [] (.metric (.counter 7))] :=
  ⟨_, rfl, rfl⟩

/-- Two fields of one name do not compile. -/
example : deriveMetricGroup exShout (exInner ++ [(⟨b!"e", [.metric [.rename b!"errors"]]⟩, .fam .absent)]) = none := rfl

/-! ## Constructors of label sets -/

namespace Spec

/-- The fields that a caller has to provide a set for: those with a set of their own and without `default`. -/
def neededSets (which : LabelKind P → Option P) (fs : List (Bytes × LabelFieldAttrs P)) : List (Bytes × P) :=
  fs.filterMap fun f => if f.2.default then none else (which f.2.kind).map (Prod.mk f.1)

def dynamicSet : LabelKind P → Option P
  | .dynamicWith p => some p
  | _ => none

def fixedSet : LabelKind P → Option P
  | .fixedWith p => some p
  | _ => none

end Spec

/-- C60: the macro always finishes with a constructor. `new` takes the sets of the `dynamic_with` fields that are not
`default`, then those of the `fixed_with` fields that are not `default`, both in declaration order; it fills each field of
the set exactly once, from its argument exactly if there is one of its name, and there is a `Default` impl exactly if `new`
takes nothing. -/
theorem C60_ctor (fs : List (Bytes × LabelFieldAttrs P))
    (hparsed : ∀ f ∈ fs, ∃ attrs, parseLabelField attrs = some f.2) :
    ∃ c, setCtor fs = .ok c ∧ c.args = neededSets dynamicSet fs ++ neededSets fixedSet fs ∧
      (c.hasDefault = true ↔ c.args = []) ∧
      ∃ init : LabelFieldAttrs P → SetInit P, c.fields.Perm (fs.map fun f => (f.1, init f.2)) ∧
        (∀ a, a.kind = .fixed → a.default = true → init a = .static) ∧
        (∀ a p, (a.kind = .fixedWith p ∨ a.kind = .dynamicWith p) → a.default = true → init a = .default p) ∧
        (∀ a, a.default = false → init a = .arg) := by
  have hfix : ∀ f ∈ fs, f.2.kind = .fixed → f.2.default = true := by
    intro f hf hk
    obtain ⟨attrs, ha⟩ := hparsed f hf
    exact ((C58_label_attrs attrs).2 _ ha).2.2.2.2.1.2 (.inr hk)
  have hs := sortedLabelFields_eq fs
  have hperm : (sortedLabelFields fs).Perm fs := by
    rw [hs]
    exact List.filter_append_perm _ fs
  have hargs : newArgs ((sortedLabelFields fs).filter fun f => !f.2.default) =
      .ok (neededSets dynamicSet fs ++ neededSets fixedSet fs) := by
    rw [newArgs_eq _ (fun f hf hk => by
      obtain ⟨h1, h2⟩ := List.mem_filter.1 hf
      have := hfix f (hperm.mem_iff.1 h1) hk
      simp [this] at h2)]
    congr 1
    rw [hs, List.filter_append, List.filterMap_append]
    congr 1
    · rw [List.filter_filter, List.filterMap_filter]
      refine List.filterMap_congr fun f hf => ?_
      obtain ⟨n, k, d, r⟩ := f
      cases k <;> cases d <;> simp [isDynamic, dynamicSet, pathOf]
    · rw [List.filter_filter, List.filterMap_filter]
      refine List.filterMap_congr fun f hf => ?_
      have := hfix f hf
      obtain ⟨n, k, d, r⟩ := f
      cases k <;> cases d <;> simp_all [isDynamic, fixedSet, pathOf]
  have hinit : ∃ init : LabelFieldAttrs P → SetInit P,
      ((sortedLabelFields fs).map fun f => (f.1, setInit f.2)).Perm (fs.map fun f => (f.1, init f.2)) ∧
        (∀ a, a.kind = .fixed → a.default = true → init a = .static) ∧
        (∀ a p, (a.kind = .fixedWith p ∨ a.kind = .dynamicWith p) → a.default = true → init a = .default p) ∧
        (∀ a, a.default = false → init a = .arg) := by
    refine ⟨setInit, hperm.map _, ?_, ?_, ?_⟩
    · intro a h1 h2; simp [setInit, h1, h2]
    · rintro a p (h1 | h1) h2 <;> simp [setInit, h1, h2]
    · intro a h; simp [setInit, h]
  have hnil : ((sortedLabelFields fs).all fun f => f.2.default) = true ↔
      neededSets dynamicSet fs ++ neededSets fixedSet fs = [] := by
    rw [List.all_eq_true, List.append_eq_nil_iff, neededSets, neededSets, List.filterMap_eq_nil_iff,
      List.filterMap_eq_nil_iff]
    constructor
    · intro h
      exact ⟨fun f hf => by simp [h f (hperm.mem_iff.2 hf)], fun f hf => by simp [h f (hperm.mem_iff.2 hf)]⟩
    · rintro ⟨h1, h2⟩ f hf
      have hf := hperm.mem_iff.1 hf
      have a1 := h1 f hf
      have a2 := h2 f hf
      have a3 := hfix f hf
      obtain ⟨n, k, d, r⟩ := f
      cases k <;> cases d <;> simp_all [dynamicSet, fixedSet]
  unfold setCtor
  by_cases hall : ((sortedLabelFields fs).all fun f => f.2.default) = true
  · rw [if_pos hall]
    exact ⟨_, rfl, (hnil.1 hall).symm, by simp, hinit⟩
  · rw [if_neg hall, hargs]
    refine ⟨_, rfl, rfl, ?_, hinit⟩
    simp only [Bool.false_eq_true, false_iff]
    exact fun h => hall (hnil.2 h)

/-- ```
#[label(fixed_with = A)] a, kind, #[label(dynamic_with = D)] d, #[label(dynamic_with = F, default)] f
``` -/
def exLabelFields : List (Bytes × LabelFieldAttrs String) :=
  [(b!"a", ⟨.fixedWith "A", false, none⟩), (b!"kind", ⟨.fixed, true, none⟩),
   (b!"d", ⟨.dynamicWith "D", false, none⟩), (b!"f", ⟨.dynamicWith "F", true, none⟩)]

example : (∀ f ∈ exLabelFields, ∃ attrs, parseLabelField attrs = some f.2) ∧
    setCtor exLabelFields = .ok ⟨[(b!"d", "D"), (b!"a", "A")],
      [(b!"d", .arg), (b!"f", .default "F"), (b!"a", .arg), (b!"kind", .static)], false⟩ := by
  refine ⟨?_, by decide⟩
  simp only [exLabelFields, List.forall_mem_cons]
  exact ⟨⟨[some [.fixedWith "A"]], rfl⟩, ⟨[], rfl⟩, ⟨[some [.dynamicWith "D"]], rfl⟩,
    ⟨[some [.dynamicWith "F", .default]], rfl⟩, by simp⟩

/-! ## Labels of variants -/

/-- C61, refuted: two variants of an enum that compiles may have the same label. -/
theorem C61_refuted (heck : RenameAll → Bytes → Bytes) :
    ∃ (vs : List Variant), (vs.map Variant.ident).Nodup ∧ (discriminants 0 vs).Nodup ∧
      ¬ (vs.map (variantLabel heck (⟨none, none, none⟩ : EnumAttrs P))).Nodup :=
  ⟨[⟨b!"A", some b!"x", none⟩, ⟨b!"B", some b!"x", none⟩], by decide, by decide, by simp [variantLabel]⟩

/-- C61: two variants have the same label only if neither has a discriminant and both end up with the same string. -/
theorem C61_labels_partial (heck : RenameAll → Bytes → Bytes) (a : EnumAttrs P) (vs : List Variant)
    (hd : (discriminants 0 vs).Nodup) {i j : Nat} (hi : i < vs.length) (hj : j < vs.length)
    (h : variantLabel heck a vs[i] = variantLabel heck a vs[j]) :
    i = j ∨ (vs[i].disc = none ∧ vs[j].disc = none ∧
      vs[i].rename.getD (heck (a.renameAll.getD .snake) vs[i].ident) =
        vs[j].rename.getD (heck (a.renameAll.getD .snake) vs[j].ident)) := by
  have hlen : ∀ (vs : List Variant) n, (discriminants n vs).length = vs.length := by
    intro vs
    induction vs with
    | nil => intro; rfl
    | cons v vs ih => intro n; simp [discriminants, ih]
  have hget : ∀ (vs : List Variant) n k (hk : k < vs.length) x, vs[k].disc = some x →
      (discriminants n vs)[k]? = some x := by
    intro vs
    induction vs with
    | nil => intro n k hk; simp at hk
    | cons v vs ih =>
      intro n k hk x hx
      cases k with
      | zero => simp only [List.getElem_cons_zero] at hx; simp [discriminants, hx]
      | succ k =>
        simp only [List.getElem_cons_succ] at hx
        simpa [discriminants] using ih _ k (by simpa using hk) x hx
  unfold variantLabel at h
  cases hx : vs[i].disc with
  | none =>
    cases hy : vs[j].disc with
    | none =>
      rw [hx, hy] at h
      right
      exact ⟨rfl, rfl, by simpa using h⟩
    | some y => rw [hx, hy] at h; cases h
  | some x =>
    cases hy : vs[j].disc with
    | none => rw [hx, hy] at h; cases h
    | some y =>
      rw [hx, hy] at h
      obtain rfl : x = y := by simpa using h
      left
      have e1 := hget vs 0 i hi x hx
      have e2 := hget vs 0 j hj x hy
      exact (List.getElem?_inj (by rw [hlen]; exact hi) hd).1 (e1.trans e2.symm)

/-- The rule of the language, variant by variant: the literal if there is one, else one more than the variant before; the
first variant has 0. -/
theorem C61_discriminants (vs : List Variant) : (discriminants 0 vs).length = vs.length ∧
    (∀ v, vs[0]? = some v → (discriminants 0 vs)[0]? = some (v.disc.getD 0)) ∧
    ∀ (i : Nat) v x, (discriminants 0 vs)[i]? = some x → vs[i + 1]? = some v →
      (discriminants 0 vs)[i + 1]? = some (v.disc.getD (x + 1)) := by
  have hlen : ∀ (vs : List Variant) n, (discriminants n vs).length = vs.length := by
    intro vs
    induction vs with
    | nil => intro; rfl
    | cons v vs ih => intro n; simp [discriminants, ih]
  refine ⟨hlen vs 0, ?_, ?_⟩
  · intro v hv
    cases vs with
    | nil => cases hv
    | cons w vs => cases hv; rfl
  · generalize (0 : Int) = n
    induction vs generalizing n with
    | nil => intro i v x _ h; simp at h
    | cons w vs ih =>
      intro i v x hx hv
      cases i with
      | zero =>
        cases hx
        cases vs with
        | nil => simp at hv
        | cons u vs => cases hv; rfl
      | succ i => exact ih _ i v x hx hv

example : discriminants 0 [⟨b!"A", none, none⟩, ⟨b!"B", none, some 5⟩, ⟨b!"C", none, none⟩] = [0, 5, 6] := by decide

/-- Status codes: `Ok = 200`, `NotFound = 404`, and `Other` without a discriminant. -/
example : (discriminants 0 [⟨b!"Ok", none, some 200⟩, ⟨b!"NotFound", none, some 404⟩, ⟨b!"Other", none, none⟩]).Nodup ∧
    ([⟨b!"Ok", none, some 200⟩, ⟨b!"NotFound", none, some 404⟩, ⟨b!"Other", some b!"other", none⟩].map
      (variantLabel (fun _ s => s) (⟨none, none, none⟩ : EnumAttrs String))) =
        [.int 200, .int 404, .str b!"other"] := by decide

/-! ## Families of a derived group -/

namespace Spec

/-- The names of the families of a group, with their namespaces. -/
def familyNames (g : Group) : List Bytes :=
  (items g).filterMap fun
    | .field path name _ _ => some (qualifiedName path name [])
    | .manual _ _ => none

end Spec

/-- C62, refuted: a struct that compiles may have a family twice, once in a namespace and once under its full name. -/
theorem C62_refuted : ∃ g, deriveMetricGroup exShout
      [(⟨b!"http_errors", []⟩, .fam (.metric (.counter 1))),
       (⟨b!"http", [.metric [.namespaced b!"http"]]⟩,
        .group (.derived (.metric b!"errors" [] (.metric (.counter 7)) .nil)))] (E := String) = some g ∧
    ¬ (familyNames g).Nodup :=
  ⟨_, rfl, by decide⟩

/-- C62: in a derived group without `namespace` and `flatten` fields, no family has the name of another. -/
theorem C62_names_partial {shout : Bytes → Option Bytes} {fields : List (MetricField E × Member)} {g : Group}
    (h : deriveMetricGroup shout fields = some g) (hm : ∀ p ∈ fields, ∃ f, p.2 = .fam f) :
    (familyNames g).Nodup ∧ familyNames g = fields.filterMap fun p => fieldName p.1 := by
  have hc := (C59_compiles shout fields).1 (by rw [h]; rfl)
  obtain ⟨itss, hall, hit⟩ := C59_items h
  have key : familyNames g = fields.filterMap fun p => fieldName p.1 := by
    rw [familyNames, hit]
    have hok := hc.attrs
    clear hit h hc
    induction hall with
    | nil => rfl
    | @cons p its fields itss hp hall ih =>
      rw [List.flatten_cons, List.filterMap_append, ih (fun q hq => hm q (List.mem_cons_of_mem _ hq))
        fun q hq => hok q (List.mem_cons_of_mem _ hq)]
      obtain ⟨fd, x⟩ := p
      obtain ⟨f, rfl⟩ := hm (fd, x) (List.mem_cons_self ..)
      have hk := (hok (fd, .fam f) (List.mem_cons_self ..)).kind
      cases hp with
      | @renamed _ s hs =>
        have hmem : _ ∈ (metricArgs fd.attrs).filterMap kindArg := List.mem_filterMap.2 ⟨_, hs, rfl⟩
        rw [head_of_le_one hk, Option.mem_toList] at hmem
        have : (fun p : MetricField E × Member => fieldName p.1) (fd, .fam f) = some s := by
          simp only [fieldName, metricKindOf]; rw [hmem]; rfl
        rw [List.filterMap_cons_some (f := fun p : MetricField E × Member => fieldName p.1) this]
        simp [qualifiedName]
      | plain hs =>
        have : (fun p : MetricField E × Member => fieldName p.1) (fd, .fam f) = some fd.ident := by
          simp only [fieldName, metricKindOf]; rw [hs]; rfl
        rw [List.filterMap_cons_some (f := fun p : MetricField E × Member => fieldName p.1) this]
        simp [qualifiedName]
  exact ⟨key ▸ hc.distinct.of_map _, key⟩

namespace Spec

/-- The names of the families that a field shows: a metric its own, a `flatten` field those of its group, a `namespace`
field those of its group with the namespace and an underscore before them. -/
def shownNames (p : MetricField E × Member) : List Bytes :=
  match metricKindOf p.1.attrs, p.2 with
  | .metric r, _ => [r.getD p.1.ident]
  | .group none, .group g => familyNames g
  | .group (some ns), .group g => (familyNames g).map fun n => ns ++ [0x5f] ++ n
  | .group _, .fam _ => []

end Spec

theorem familyNames_within (ns : Bytes) (its : List Item) :
    ((its.map (Item.within ns)).filterMap fun
      | .field path name _ _ => some (qualifiedName path name [])
      | .manual _ _ => none) =
    (its.filterMap fun
      | .field path name _ _ => some (qualifiedName path name [])
      | .manual _ _ => none).map fun n => ns ++ [0x5f] ++ n := by
  induction its with
  | nil => rfl
  | cons it its ih =>
    cases it with
    | field path name docs f =>
      simp only [List.map_cons, Item.within, List.filterMap_cons, ih]
      simp [qualifiedName]
    | manual path calls => simpa only [List.map_cons, Item.within, List.filterMap_cons] using ih

theorem familyNames_derived {shout : Bytes → Option Bytes} {fields : List (MetricField E × Member)} {g : Group}
    (h : deriveMetricGroup shout fields = some g) : familyNames g = fields.flatMap shownNames := by
  have hc := (C59_compiles shout fields).1 (by rw [h]; rfl)
  obtain ⟨itss, hall, hit⟩ := C59_items h
  rw [familyNames, hit]
  have hok := hc.attrs
  clear hit h hc
  induction hall with
  | nil => rfl
  | @cons p its fields itss hp hall ih =>
    rw [List.flatten_cons, List.filterMap_append, ih fun q hq => hok q (List.mem_cons_of_mem _ hq),
      List.flatMap_cons]
    congr 1
    obtain ⟨fd, x⟩ := p
    have hk := (hok (fd, x) (List.mem_cons_self ..)).kind
    have one : ∀ {a k}, a ∈ metricArgs fd.attrs → kindArg a = some k → metricKindOf fd.attrs = k := by
      intro a k ha hak
      have hmem : k ∈ (metricArgs fd.attrs).filterMap kindArg := List.mem_filterMap.2 ⟨_, ha, hak⟩
      rw [head_of_le_one hk, Option.mem_toList] at hmem
      rw [metricKindOf, hmem]; rfl
    cases hp with
    | renamed hs => simp [shownNames, one hs rfl, qualifiedName]
    | plain hs => simp [shownNames, metricKindOf, hs, qualifiedName]
    | flatten hs => simp [shownNames, one hs rfl, familyNames]
    | namespaced hs =>
      simp only [shownNames, one hs rfl]
      exact familyNames_within _ _

/-- C62: for any derived group, with `namespace` and `flatten` fields: no family has the name of another exactly if the
groups inside have no such families and no name shown by one field is shown by another. -/
theorem C62_nested_partial {shout : Bytes → Option Bytes} {fields : List (MetricField E × Member)} {g : Group}
    (h : deriveMetricGroup shout fields = some g) :
    (familyNames g).Nodup ↔
      (∀ p ∈ fields, ∀ inner, p.2 = .group inner → (familyNames inner).Nodup) ∧
        fields.Pairwise fun p q => ∀ n ∈ shownNames p, n ∉ shownNames q := by
  have hfit := ((C59_compiles shout fields).1 (by rw [h]; rfl)).fits
  rw [familyNames_derived h, List.nodup_flatMap]
  refine and_congr ⟨fun hn p hp inner hi => ?_, fun hn p hp => ?_⟩ ?_
  · have := hn p hp
    have hf := hfit p hp
    obtain ⟨fd, x⟩ := p
    simp only at hi
    subst hi
    simp only [MemberFits, shownNames] at hf this
    cases hk : metricKindOf fd.attrs with
    | metric r => simp [fieldName, hk] at hf
    | group ns =>
      rw [hk] at this
      cases ns with
      | none => exact this
      | some ns => exact List.Nodup.of_map _ this
  · obtain ⟨fd, x⟩ := p
    simp only [shownNames]
    cases hk : metricKindOf fd.attrs with
    | metric r => simp
    | group ns =>
      cases x with
      | fam f => cases ns <;> simp
      | group inner =>
        have := hn _ hp inner rfl
        cases ns with
        | none => exact this
        | some ns => exact this.map (List.append_right_injective _)
  · rfl

/-- C62: a rule that can be checked field by field. Let no namespace with its underscore begin that of another field,
or the name of a metric of another field; and let `flatten` groups have no name in common
with each other or with the metric fields. Then, if the groups inside have no family twice, neither has the struct. -/
theorem C62_prefix_partial {shout : Bytes → Option Bytes} {fields : List (MetricField E × Member)} {g : Group}
    (h : deriveMetricGroup shout fields = some g)
    (hin : ∀ p ∈ fields, ∀ inner, p.2 = .group inner → (familyNames inner).Nodup)
    (hns : fields.Pairwise fun p q => ∀ ns ns', metricKindOf p.1.attrs = .group (some ns) →
      metricKindOf q.1.attrs = .group (some ns') → ¬ ns ++ [0x5f] <+: ns' ++ [0x5f] ∧ ¬ ns' ++ [0x5f] <+: ns ++ [0x5f])
    (hpre : ∀ p ∈ fields, ∀ q ∈ fields, ∀ ns, metricKindOf p.1.attrs = .group (some ns) →
      (∀ ns', metricKindOf q.1.attrs ≠ .group (some ns')) → ∀ n ∈ shownNames q, ¬ ns ++ [0x5f] <+: n)
    (hflat : fields.Pairwise fun p q => metricKindOf p.1.attrs = .group none ∨ metricKindOf q.1.attrs = .group none →
      (∀ ns, metricKindOf p.1.attrs ≠ .group (some ns)) → (∀ ns, metricKindOf q.1.attrs ≠ .group (some ns)) →
      ∀ n ∈ shownNames p, n ∉ shownNames q) :
    (familyNames g).Nodup := by
  have hc := (C59_compiles shout fields).1 (by rw [h]; rfl)
  refine (C62_nested_partial h).2 ⟨hin, ?_⟩
  have hmetric : fields.Pairwise fun p q => ∀ r r', metricKindOf p.1.attrs = .metric r →
      metricKindOf q.1.attrs = .metric r' → r.getD p.1.ident ≠ r'.getD q.1.ident := by
    have hd := hc.distinct.of_map
    rw [List.Nodup, List.pairwise_filterMap] at hd
    refine hd.imp fun {p q} hpq r r' hr hr' => ?_
    exact hpq _ (by simp [fieldName, hr]) _ (by simp [fieldName, hr'])
  have inns : ∀ (p : MetricField E × Member) ns, metricKindOf p.1.attrs = .group (some ns) → ∀ n ∈ shownNames p,
      ns ++ [0x5f] <+: n := by
    intro p ns hk n hn
    obtain ⟨fd, x⟩ := p
    simp only at hk
    cases x with
    | fam f => simp [shownNames, hk] at hn
    | group inner =>
      simp only [shownNames, hk, List.mem_map] at hn
      obtain ⟨n', _, rfl⟩ := hn
      exact List.prefix_append _ _
  have hboth := hmetric.and (hns.and hflat)
  refine hboth.imp_of_mem fun {p q} hp hq hpq n hn hn' => ?_
  obtain ⟨a, b, c⟩ := hpq
  cases kp : metricKindOf p.1.attrs with
  | metric r =>
    cases kq : metricKindOf q.1.attrs with
    | metric r' =>
      simp only [shownNames, kp, kq, List.mem_singleton] at hn hn'
      exact a r r' kp kq (hn.symm.trans hn')
    | group ns =>
      cases ns with
      | none => exact c (.inr kq) (by simp [kp]) (by simp [kq]) n hn hn'
      | some ns => exact hpre q hq p hp ns kq (by simp [kp]) n hn (inns q ns kq n hn')
  | group ns =>
    cases ns with
    | some ns =>
      have h1 := inns p ns kp n hn
      by_cases hq' : ∃ ns', metricKindOf q.1.attrs = .group (some ns')
      · obtain ⟨ns', kq⟩ := hq'
        have h2 := inns q ns' kq n hn'
        rcases List.prefix_or_prefix_of_prefix h1 h2 with h3 | h3
        · exact (b ns ns' kp kq).1 h3
        · exact (b ns ns' kp kq).2 h3
      · exact hpre p hp q hq ns kp (fun ns' hk => hq' ⟨ns', hk⟩) n hn' h1
    | none =>
      by_cases hq' : ∃ ns', metricKindOf q.1.attrs = .group (some ns')
      · obtain ⟨ns', kq⟩ := hq'
        exact hpre q hq p hp ns' kq (by simp [kp]) n hn (inns q ns' kq n hn')
      · exact c (.inl kp) (by simp [kp]) (fun ns' hk => hq' ⟨ns', hk⟩) n hn hn'

/-- A struct with a metric, a group in a namespace and a flattened group. -/
def exNested : List (MetricField String × Member) :=
  [(⟨b!"requests", []⟩, .fam (.metric (.counter 1))),
   (⟨b!"http", [.metric [.namespaced b!"http"]]⟩,
    .group (.derived (.metric b!"errors" [] (.metric (.counter 7)) .nil))),
   (⟨b!"db", [.metric [.flatten]]⟩,
    .group (.derived (.metric b!"errors" [] (.metric (.counter 2)) (.metric b!"queries" [] (.metric (.counter 3)) .nil))))]

example : ∃ g, deriveMetricGroup exShout exNested = some g ∧ (familyNames g).Nodup ∧
    familyNames g = [b!"requests", b!"http_errors", b!"errors", b!"queries"] := by
  refine ⟨_, rfl, C62_prefix_partial (shout := exShout) (fields := exNested) rfl ?_ ?_ ?_ ?_, by decide⟩
  · intro p hp inner hi
    simp only [exNested, List.mem_cons, List.not_mem_nil, or_false] at hp
    rcases hp with rfl | rfl | rfl <;> cases hi <;> decide
  · simp [exNested, metricKindOf, metricArgs, kindArg]
  · intro p hp q hq ns hk hnot n hn
    simp only [exNested, List.mem_cons, List.not_mem_nil, or_false] at hp hq
    rcases hp with rfl | rfl | rfl <;> cases hk
    rcases hq with rfl | rfl | rfl
    · revert n; decide
    · exact absurd rfl (hnot _)
    · revert n; decide
  · simp [exNested, metricKindOf, metricArgs, kindArg]
    decide

end Measured
