import Verif.Spec.Derive
import Verif.Proof.LabelGroup

/-! # Lemmas about the attribute parsers -/

namespace Measured.Derive
open Measured.Spec

section metric
variable {E : Type}

/-- The initialisers that a parser state stands for. -/
def rawsOf : Option (MetricInit E) → List E
  | some (.raw e) => [e]
  | _ => []
def metasOf : Option (MetricInit E) → List E
  | some (.metric md _) => md.toList
  | _ => []
def setsOf : Option (MetricInit E) → List E
  | some (.metric _ ls) => ls.toList
  | _ => []

def mkInit (raws metas sets : List E) : Option (MetricInit E) :=
  match raws with
  | e :: _ => some (.raw e)
  | [] => if metas.isEmpty && sets.isEmpty then none else some (.metric metas.head? sets.head?)

/-- The state parsed from these arguments. -/
structure Holds (s : MetricState E) (kinds : List MetricKind) (docs : List (List Char)) (raws metas sets : List E) :
    Prop where
  k1 : kinds.length ≤ 1
  k2 : s.args = kinds.head?
  d : s.docs = if docs.isEmpty then none else some docs.flatten
  r1 : raws.length ≤ 1
  m1 : metas.length ≤ 1
  s1 : sets.length ≤ 1
  x : raws ≠ [] → metas = [] ∧ sets = []
  i : s.init = mkInit raws metas sets

theorem head_of_le_one {α : Type} {l : List α} (h : l.length ≤ 1) : l = l.head?.toList := by
  match l with
  | [] => rfl
  | [a] => rfl
  | a :: b :: l => simp at h

theorem arg_holds {s : MetricState E} {kinds docs raws metas sets} (h : Holds s kinds docs raws metas sets)
    (a : MetricArg E) :
    (∀ s', s.arg a = some s' → a ≠ .bad ∧
      Holds s' (kinds ++ (kindArg a).toList) docs (raws ++ (initArg a).toList) (metas ++ (metadataArg a).toList)
        (sets ++ (labelSetArg a).toList)) ∧
    (s.arg a = none → a = .bad ∨ 1 < (kinds ++ (kindArg a).toList).length ∨ 1 < (raws ++ (initArg a).toList).length ∨
      1 < (metas ++ (metadataArg a).toList).length ∨ 1 < (sets ++ (labelSetArg a).toList).length ∨
      (raws ++ (initArg a).toList ≠ [] ∧
        (metas ++ (metadataArg a).toList ≠ [] ∨ sets ++ (labelSetArg a).toList ≠ []))) := by
  obtain ⟨k1, k2, d, r1, m1, s1, x, i⟩ := h
  obtain ⟨args, dd, init⟩ := s
  simp only at k2 d i
  subst k2 d i
  have kind : ∀ k : MetricKind,
      (∀ s', (⟨kinds.head?, if docs.isEmpty then none else some docs.flatten, mkInit raws metas sets⟩ :
          MetricState E).setKind k = some s' → Holds s' (kinds ++ [k]) docs raws metas sets) ∧
      ((⟨kinds.head?, if docs.isEmpty then none else some docs.flatten, mkInit raws metas sets⟩ :
          MetricState E).setKind k = none → 1 < (kinds ++ [k]).length) := by
    intro k
    cases kinds with
    | nil =>
      refine ⟨fun s' h => ?_, fun h => by simp [MetricState.setKind] at h⟩
      simp only [MetricState.setKind, List.head?_nil, Option.isSome_none, Bool.false_eq_true, if_false,
        Option.some.injEq] at h
      subst h
      exact ⟨by simp, by simp, rfl, r1, m1, s1, x, rfl⟩
    | cons a l => exact ⟨fun s' h => by simp [MetricState.setKind] at h, fun _ => by simp⟩
  cases a with
  | rename r => 
    simp only [MetricState.arg, kindArg, initArg, metadataArg, labelSetArg, Option.toList, List.append_nil]
    exact ⟨fun s' h => ⟨by simp, (kind _).1 s' h⟩, fun h => .inr (.inl ((kind _).2 h))⟩
  | namespaced r => 
    simp only [MetricState.arg, kindArg, initArg, metadataArg, labelSetArg, Option.toList, List.append_nil]
    exact ⟨fun s' h => ⟨by simp, (kind _).1 s' h⟩, fun h => .inr (.inl ((kind _).2 h))⟩
  | flatten => 
    simp only [MetricState.arg, kindArg, initArg, metadataArg, labelSetArg, Option.toList, List.append_nil]
    exact ⟨fun s' h => ⟨by simp, (kind _).1 s' h⟩, fun h => .inr (.inl ((kind _).2 h))⟩
  | bad => exact ⟨fun s' h => by simp [MetricState.arg] at h, fun _ => .inl rfl⟩
  | init e =>
    simp only [MetricState.arg, kindArg, initArg, metadataArg, labelSetArg, Option.toList, List.append_nil]
    rcases raws with _ | ⟨r, rs⟩
    · rcases metas with _ | ⟨m, ms⟩ <;> rcases sets with _ | ⟨t, ts⟩ <;> simp [mkInit]
      exact ⟨k1, rfl, by simp, by simp, by simp, by simp, by simp, by simp [mkInit]⟩
    · simp [mkInit]
  | metadata e =>
    simp only [MetricState.arg, kindArg, initArg, metadataArg, labelSetArg, Option.toList, List.append_nil]
    rcases raws with _ | ⟨r, rs⟩
    · rcases metas with _ | ⟨m, ms⟩ <;> rcases sets with _ | ⟨t, ts⟩ <;> simp [mkInit]
      · exact ⟨k1, rfl, by simp, by simp, by simp, by simp, by simp, by simp [mkInit]⟩
      · exact ⟨k1, rfl, by simp, by simp, by simp, s1, by simp, by simp [mkInit]⟩
    · simp [mkInit]
  | labelSet e =>
    simp only [MetricState.arg, kindArg, initArg, metadataArg, labelSetArg, Option.toList, List.append_nil]
    rcases raws with _ | ⟨r, rs⟩
    · rcases metas with _ | ⟨m, ms⟩ <;> rcases sets with _ | ⟨t, ts⟩ <;> simp [mkInit]
      · exact ⟨k1, rfl, by simp, by simp, by simp, by simp, by simp, by simp [mkInit]⟩
      · exact ⟨k1, rfl, by simp, by simp, m1, by simp, by simp, by simp [mkInit]⟩
    · simp [mkInit]

/-- The lists of arguments do not contradict each other. -/
structure Good (kinds : List MetricKind) (raws metas sets : List E) : Prop where
  k : kinds.length ≤ 1
  r : raws.length ≤ 1
  m : metas.length ≤ 1
  s : sets.length ≤ 1
  x : raws ≠ [] → metas = [] ∧ sets = []

theorem Good.prefix {kinds kinds' : List MetricKind} {raws raws' metas metas' sets sets' : List E}
    (h : Good (kinds ++ kinds') (raws ++ raws') (metas ++ metas') (sets ++ sets')) : Good kinds raws metas sets := by
  obtain ⟨k, r, m, s, x⟩ := h
  simp only [List.length_append] at k r m s
  refine ⟨by omega, by omega, by omega, by omega, fun hr => ?_⟩
  have := x (by simp [hr])
  exact ⟨(List.append_eq_nil_iff.1 this.1).1, (List.append_eq_nil_iff.1 this.2).1⟩

theorem Holds.good {s : MetricState E} {kinds docs raws metas sets} (h : Holds s kinds docs raws metas sets) :
    Good kinds raws metas sets := ⟨h.k1, h.r1, h.m1, h.s1, h.x⟩

theorem filterMap_cons' {α β : Type} (f : α → Option β) (a : α) (l : List α) :
    (a :: l).filterMap f = (f a).toList ++ l.filterMap f := by
  cases h : f a <;> simp [h]

theorem argList_holds {s : MetricState E} {kinds docs raws metas sets} (h : Holds s kinds docs raws metas sets)
    (as : List (MetricArg E)) :
    (∀ s', s.argList as = some s' → .bad ∉ as ∧
      Holds s' (kinds ++ as.filterMap kindArg) docs (raws ++ as.filterMap initArg) (metas ++ as.filterMap metadataArg)
        (sets ++ as.filterMap labelSetArg)) ∧
    (s.argList as = none → .bad ∈ as ∨ ¬ Good (kinds ++ as.filterMap kindArg) (raws ++ as.filterMap initArg)
      (metas ++ as.filterMap metadataArg) (sets ++ as.filterMap labelSetArg)) := by
  induction as generalizing s kinds raws metas sets with
  | nil =>
    refine ⟨fun s' h' => ?_, fun h' => by simp [MetricState.argList] at h'⟩
    simp only [MetricState.argList, Option.some.injEq] at h'
    subst h'
    simpa using h
  | cons a as ih =>
    simp only [MetricState.argList, filterMap_cons', ← List.append_assoc]
    cases ha : s.arg a with
    | none =>
      refine ⟨fun s' h' => by simp at h', fun _ => ?_⟩
      rcases (arg_holds h a).2 ha with rfl | hn
      · exact .inl (by simp)
      · refine .inr fun hg => ?_
        obtain ⟨k, r, m, s, x⟩ := hg.prefix
        rcases hn with hn | hn | hn | hn | ⟨h1, h2⟩
        · omega
        · omega
        · omega
        · omega
        · rcases h2 with h2 | h2
          · exact h2 (x h1).1
          · exact h2 (x h1).2
    | some s1 =>
      obtain ⟨hb, h1⟩ := (arg_holds h a).1 s1 ha
      obtain ⟨i1, i2⟩ := ih h1
      simp only [Option.bind_some]
      refine ⟨fun s' h' => ?_, fun h' => ?_⟩
      · have := i1 s' h'
        exact ⟨by simp [this.1, Ne.symm hb], this.2⟩
      · rcases i2 h' with h2 | h2
        · exact .inl (by simp [h2])
        · exact .inr h2

theorem attrList_holds {s : MetricState E} {kinds docs raws metas sets} (h : Holds s kinds docs raws metas sets)
    (as : List (MetricAttr E)) :
    (∀ s', s.attrList as = some s' → .bad ∉ metricArgs as ∧ none ∉ docAttrs as ∧
      Holds s' (kinds ++ (metricArgs as).filterMap kindArg) (docs ++ (docAttrs as).filterMap id)
        (raws ++ (metricArgs as).filterMap initArg) (metas ++ (metricArgs as).filterMap metadataArg)
        (sets ++ (metricArgs as).filterMap labelSetArg)) ∧
    (s.attrList as = none → .bad ∈ metricArgs as ∨ none ∈ docAttrs as ∨
      ¬ Good (kinds ++ (metricArgs as).filterMap kindArg) (raws ++ (metricArgs as).filterMap initArg)
      (metas ++ (metricArgs as).filterMap metadataArg) (sets ++ (metricArgs as).filterMap labelSetArg)) := by
  induction as generalizing s kinds docs raws metas sets with
  | nil =>
    refine ⟨fun s' h' => ?_, fun h' => by simp [MetricState.attrList] at h'⟩
    simp only [MetricState.attrList, Option.some.injEq] at h'
    subst h'
    simpa [metricArgs, docAttrs] using h
  | cons a as ih =>
    cases a with
    | other =>
      have e1 : metricArgs (MetricAttr.other :: as) = metricArgs as := rfl
      have e2 : docAttrs (MetricAttr.other :: as) = docAttrs as := rfl
      rw [e1, e2]
      exact ih h
    | doc t =>
      have e1 : metricArgs (MetricAttr.doc t :: as) = metricArgs as := rfl
      have e2 : docAttrs (MetricAttr.doc t :: as) = t :: docAttrs as := rfl
      rw [e1, e2]
      cases t with
      | none =>
        refine ⟨fun s' h' => ?_, fun _ => .inr (.inl (by simp))⟩
        simp [MetricState.attrList, MetricState.attr] at h'
      | some t =>
        have h1 : Holds { s with docs := some (s.docs.getD [] ++ t) } kinds (docs ++ [t]) raws metas sets := by
          refine ⟨h.k1, h.k2, ?_, h.r1, h.m1, h.s1, h.x, h.i⟩
          rw [h.d]
          cases docs <;> simp
        obtain ⟨i1, i2⟩ := ih h1
        have e : ∀ x, x = docAttrs as → (some t :: x).filterMap id = t :: x.filterMap id := fun x _ => by simp
        refine ⟨fun s' h' => ?_, fun h' => ?_⟩
        · have := i1 s' h'
          refine ⟨this.1, by simpa using this.2.1, ?_⟩
          simpa [List.append_assoc] using this.2.2
        · rcases i2 h' with h2 | h2 | h2
          · exact .inl h2
          · exact .inr (.inl (by simp [h2]))
          · exact .inr (.inr h2)
    | metric l =>
      have e1 : metricArgs (MetricAttr.metric l :: as) = l ++ metricArgs as := rfl
      have e2 : docAttrs (MetricAttr.metric l :: as) = docAttrs as := rfl
      rw [e1, e2]
      simp only [MetricState.attrList, MetricState.attr, List.filterMap_append, ← List.append_assoc]
      cases ha : s.argList l with
      | none =>
        refine ⟨fun s' h' => by simp at h', fun _ => ?_⟩
        rcases (argList_holds h l).2 ha with h2 | h2
        · exact .inl (by simp [h2])
        · exact .inr (.inr fun hg => h2 hg.prefix)
      | some s1 =>
        obtain ⟨hb, h1⟩ := (argList_holds h l).1 s1 ha
        obtain ⟨i1, i2⟩ := ih h1
        simp only [Option.bind_some]
        refine ⟨fun s' h' => ?_, fun h' => ?_⟩
        · have := i1 s' h'
          exact ⟨by simp [hb, this.1], this.2⟩
        · rcases i2 h' with h2 | h2 | h2
          · exact .inl (by simp [h2])
          · exact .inr (.inl h2)
          · exact .inr (.inr h2)

/-- The meaning of attributes without contradictions. -/
def metricMeaning (attrs : List (MetricAttr E)) : MetricFieldAttrs E :=
  ⟨metricKindOf attrs, docOf attrs, mkInit ((metricArgs attrs).filterMap initArg)
    ((metricArgs attrs).filterMap metadataArg) ((metricArgs attrs).filterMap labelSetArg)⟩

theorem docs_eq {ds : List (Option (List Char))} (h : none ∉ ds) :
    (if (ds.filterMap id).isEmpty then none else some (ds.filterMap id).flatten) =
      if ds.isEmpty then none else some (ds.flatMap fun d => d.getD []) := by
  have key : ∀ l : List (Option (List Char)), none ∉ l → (l.filterMap id).flatten = l.flatMap fun d => d.getD [] := by
    intro l hl
    induction l with
    | nil => rfl
    | cons a l ih =>
      cases a with
      | none => simp at hl
      | some a =>
        rw [List.filterMap_cons_some (by rfl), List.flatten_cons, List.flatMap_cons, ih (by simpa using hl)]
        rfl
  rw [key ds h]
  cases ds with
  | nil => rfl
  | cons d ds =>
    cases d with
    | none => simp at h
    | some d => simp

theorem parseMetricField_iff (attrs : List (MetricAttr E)) (a : MetricFieldAttrs E) :
    parseMetricField attrs = some a ↔ MetricAttrsOk attrs ∧ a = metricMeaning attrs := by
  have h0 : Holds (⟨none, none, none⟩ : MetricState E) [] [] [] [] [] :=
    ⟨by simp, rfl, rfl, by simp, by simp, by simp, by simp, rfl⟩
  obtain ⟨i1, i2⟩ := attrList_holds h0 attrs
  simp only [List.nil_append] at i1 i2
  unfold parseMetricField
  cases hs : (⟨none, none, none⟩ : MetricState E).attrList attrs with
  | none =>
    simp only [Option.map_none, reduceCtorEq, false_iff, not_and]
    intro hok
    rcases i2 hs with h | h | h
    · exact absurd h hok.known
    · exact absurd h hok.docs
    · exact absurd ⟨hok.kind, hok.init, hok.metadata, hok.labelSet, hok.exclusive⟩ h
  | some s =>
    obtain ⟨hb, hd, h⟩ := i1 s hs
    have e : (⟨s.args.getD (.metric none), s.docs, s.init⟩ : MetricFieldAttrs E) = metricMeaning attrs := by
      rw [h.k2, h.d, h.i, docs_eq hd]; rfl
    simp only [Option.map_some, Option.some.injEq, e]
    exact ⟨fun h' => ⟨⟨hb, hd, h.k1, h.r1, h.m1, h.s1, h.x⟩, h'.symm⟩, fun h' => h'.2.symm⟩

end metric

section label
variable {P : Type}

structure LHolds (s : LabelState P) (kinds : List (LabelKind P)) (dflts : List Unit) (renames : List Bytes) : Prop where
  k1 : kinds.length ≤ 1
  k2 : s.kind = kinds.head?
  d1 : dflts.length ≤ 1
  d2 : s.default = dflts.head?
  r1 : renames.length ≤ 1
  r2 : s.rename = renames.head?

theorem labelArg_holds {s : LabelState P} {kinds dflts renames} (h : LHolds s kinds dflts renames) (a : LabelArg P) :
    (∀ s', s.arg a = some s' → a ≠ .bad ∧ LHolds s' (kinds ++ (labelKindArg a).toList)
      (dflts ++ (labelDefaultArg a).toList) (renames ++ (labelRenameArg a).toList)) ∧
    (s.arg a = none → a = .bad ∨ 1 < (kinds ++ (labelKindArg a).toList).length ∨
      1 < (dflts ++ (labelDefaultArg a).toList).length ∨ 1 < (renames ++ (labelRenameArg a).toList).length) := by
  obtain ⟨k1, k2, d1, d2, r1, r2⟩ := h
  obtain ⟨k, d, r⟩ := s
  simp only at k2 d2 r2
  subst k2 d2 r2
  have kind : ∀ k : LabelKind P,
      (∀ s', (⟨kinds.head?, dflts.head?, renames.head?⟩ : LabelState P).setKind k = some s' →
        LHolds s' (kinds ++ [k]) dflts renames) ∧
      ((⟨kinds.head?, dflts.head?, renames.head?⟩ : LabelState P).setKind k = none → 1 < (kinds ++ [k]).length) := by
    intro k
    cases kinds with
    | nil =>
      refine ⟨fun s' h => ?_, fun h => by simp [LabelState.setKind] at h⟩
      simp only [LabelState.setKind, List.head?_nil, Option.isSome_none, Bool.false_eq_true, if_false,
        Option.some.injEq] at h
      subst h
      exact ⟨by simp, rfl, d1, rfl, r1, rfl⟩
    | cons a l => exact ⟨fun s' h => by simp [LabelState.setKind] at h, fun _ => by simp⟩
  cases a with
  | fixed =>
    simp only [LabelState.arg, labelKindArg, labelDefaultArg, labelRenameArg, Option.toList, List.append_nil]
    exact ⟨fun s' h => ⟨by simp, (kind _).1 s' h⟩, fun h => .inr (.inl ((kind _).2 h))⟩
  | fixedWith p =>
    simp only [LabelState.arg, labelKindArg, labelDefaultArg, labelRenameArg, Option.toList, List.append_nil]
    exact ⟨fun s' h => ⟨by simp, (kind _).1 s' h⟩, fun h => .inr (.inl ((kind _).2 h))⟩
  | dynamicWith p =>
    simp only [LabelState.arg, labelKindArg, labelDefaultArg, labelRenameArg, Option.toList, List.append_nil]
    exact ⟨fun s' h => ⟨by simp, (kind _).1 s' h⟩, fun h => .inr (.inl ((kind _).2 h))⟩
  | bad => exact ⟨fun s' h => by simp [LabelState.arg] at h, fun _ => .inl rfl⟩
  | default =>
    simp only [LabelState.arg, labelKindArg, labelDefaultArg, labelRenameArg, Option.toList, List.append_nil]
    rcases dflts with _ | ⟨x, xs⟩ <;> simp
    exact ⟨k1, rfl, by simp, rfl, r1, rfl⟩
  | rename r =>
    simp only [LabelState.arg, labelKindArg, labelDefaultArg, labelRenameArg, Option.toList, List.append_nil]
    rcases renames with _ | ⟨x, xs⟩ <;> simp
    exact ⟨k1, rfl, d1, rfl, by simp, rfl⟩

def LGood (kinds : List (LabelKind P)) (dflts : List Unit) (renames : List Bytes) : Prop :=
  kinds.length ≤ 1 ∧ dflts.length ≤ 1 ∧ renames.length ≤ 1

theorem LGood.prefix {kinds kinds' : List (LabelKind P)} {dflts dflts' renames renames'}
    (h : LGood (kinds ++ kinds') (dflts ++ dflts') (renames ++ renames')) : LGood kinds dflts renames := by
  simp only [LGood, List.length_append] at *
  omega

theorem labelArgList_holds {s : LabelState P} {kinds dflts renames} (h : LHolds s kinds dflts renames)
    (as : List (LabelArg P)) :
    (∀ s', s.argList as = some s' → .bad ∉ as ∧ LHolds s' (kinds ++ as.filterMap labelKindArg)
      (dflts ++ as.filterMap labelDefaultArg) (renames ++ as.filterMap labelRenameArg)) ∧
    (s.argList as = none → .bad ∈ as ∨ ¬ LGood (kinds ++ as.filterMap labelKindArg)
      (dflts ++ as.filterMap labelDefaultArg) (renames ++ as.filterMap labelRenameArg)) := by
  induction as generalizing s kinds dflts renames with
  | nil =>
    refine ⟨fun s' h' => ?_, fun h' => by simp [LabelState.argList] at h'⟩
    simp only [LabelState.argList, Option.some.injEq] at h'
    subst h'
    simpa using h
  | cons a as ih =>
    simp only [LabelState.argList, filterMap_cons', ← List.append_assoc]
    cases ha : s.arg a with
    | none =>
      refine ⟨fun s' h' => by simp at h', fun _ => ?_⟩
      rcases (labelArg_holds h a).2 ha with rfl | hn
      · exact .inl (by simp)
      · refine .inr fun hg => ?_
        obtain ⟨k, d, r⟩ := hg.prefix
        omega
    | some s1 =>
      obtain ⟨hb, h1⟩ := (labelArg_holds h a).1 s1 ha
      obtain ⟨i1, i2⟩ := ih h1
      simp only [Option.bind_some]
      refine ⟨fun s' h' => ?_, fun h' => ?_⟩
      · have := i1 s' h'
        exact ⟨by simp [this.1, Ne.symm hb], this.2⟩
      · rcases i2 h' with h2 | h2
        · exact .inl (by simp [h2])
        · exact .inr h2

/-- All attributes are parsed as one list of arguments. -/
theorem labelAttrList_eq (s : LabelState P) (as : List (Option (List (LabelArg P)))) :
    s.attrList as = s.argList (labelArgs as) := by
  have app : ∀ (l r : List (LabelArg P)) (s : LabelState P),
      s.argList (l ++ r) = (s.argList l).bind fun s => s.argList r := by
    intro l r
    induction l with
    | nil => intro s; rfl
    | cons a l ih =>
      intro s
      simp only [List.cons_append, LabelState.argList]
      cases s.arg a with
      | none => rfl
      | some s => simp [ih]
  induction as generalizing s with
  | nil => rfl
  | cons a as ih =>
    cases a with
    | none => exact ih s
    | some l =>
      have e : labelArgs (some l :: as) = l ++ labelArgs as := rfl
      rw [e, app, LabelState.attrList]
      congr 1
      funext s
      exact ih s

theorem parseLabelField_iff (attrs : List (Option (List (LabelArg P)))) (a : LabelFieldAttrs P) :
    parseLabelField attrs = some a ↔ LabelAttrsOk attrs ∧
      a.kind = ((labelArgs attrs).filterMap labelKindArg).head?.getD .fixed ∧
      (a.default = true ↔ .default ∈ labelArgs attrs ∨ a.kind = .fixed) ∧
      a.rename = ((labelArgs attrs).filterMap labelRenameArg).head? := by
  have h0 : LHolds (⟨none, none, none⟩ : LabelState P) [] [] [] := ⟨by simp, rfl, by simp, rfl, by simp, rfl⟩
  obtain ⟨i1, i2⟩ := labelArgList_holds h0 (labelArgs attrs)
  simp only [List.nil_append] at i1 i2
  unfold parseLabelField
  rw [labelAttrList_eq]
  cases hs : (⟨none, none, none⟩ : LabelState P).argList (labelArgs attrs) with
  | none =>
    simp only [Option.map_none, reduceCtorEq, false_iff, not_and]
    intro hok
    rcases i2 hs with h | h
    · exact absurd h hok.known
    · exact absurd ⟨hok.kind, hok.default, hok.rename⟩ h
  | some s =>
    obtain ⟨hb, h⟩ := i1 s hs
    have ok : LabelAttrsOk attrs := ⟨hb, h.k1, h.d1, h.r1⟩
    have hdef : s.default = some () ↔ .default ∈ labelArgs attrs := by
      rw [h.d2]
      constructor
      · intro e
        obtain ⟨x, hx, hx'⟩ := List.mem_filterMap.1 (List.mem_of_head? e)
        cases x <;> simp [labelDefaultArg] at hx'
        exact hx
      · intro hm
        have : () ∈ (labelArgs attrs).filterMap labelDefaultArg := List.mem_filterMap.2 ⟨_, hm, rfl⟩
        cases hl : (labelArgs attrs).filterMap labelDefaultArg with
        | nil => simp [hl] at this
        | cons x xs => rfl
    obtain ⟨ak, ad, ar⟩ := a
    simp only [Option.map_some, Option.some.injEq, LabelFieldAttrs.mk.injEq, h.k2, h.r2]
    constructor
    · rintro ⟨rfl, rfl, rfl⟩
      refine ⟨ok, rfl, ?_, rfl⟩
      rw [← hdef]
      cases s.default <;> cases ((labelArgs attrs).filterMap labelKindArg).head?.getD .fixed <;> simp
    · rintro ⟨_, rfl, hd, rfl⟩
      refine ⟨rfl, ?_, rfl⟩
      rw [← hdef] at hd
      rw [Bool.eq_iff_iff, hd]
      cases s.default <;> cases ((labelArgs attrs).filterMap labelKindArg).head?.getD .fixed <;> simp

end label

section ctor
variable {P : Type}

def isDynamic (f : Bytes × LabelFieldAttrs P) : Bool :=
  match f.2.kind with
  | .dynamicWith _ => true
  | _ => false

theorem sortedLabelFields_eq (fs : List (Bytes × LabelFieldAttrs P)) :
    sortedLabelFields fs = fs.filter isDynamic ++ fs.filter (fun f => !isDynamic f) := by
  rw [sortedLabelFields, sortByKey_eq _ (fun x => by cases h : x.2.kind <;> simp [labelSortKey])]
  congr 1
  · congr 1
    funext f
    cases h : f.2.kind <;> simp [labelSortKey, isDynamic, h]
  · congr 1
    funext f
    cases h : f.2.kind <;> simp [labelSortKey, isDynamic, h]

def pathOf (f : Bytes × LabelFieldAttrs P) : Option (Bytes × P) :=
  match f.2.kind with
  | .fixed => none
  | .fixedWith p => some (f.1, p)
  | .dynamicWith p => some (f.1, p)

theorem newArgs_eq (fs : List (Bytes × LabelFieldAttrs P)) (h : ∀ f ∈ fs, f.2.kind ≠ .fixed) :
    newArgs fs = .ok (fs.filterMap pathOf) := by
  induction fs with
  | nil => rfl
  | cons f fs ih =>
    have h1 := h f (by simp)
    rw [newArgs, ih fun f hf => h f (by simp [hf])]
    cases hk : f.2.kind with
    | fixed => exact absurd hk h1
    | fixedWith p =>
      have e : pathOf f = some (f.1, p) := by simp [pathOf, hk]
      rw [List.filterMap_cons_some e]
      simp [newArg, hk]
    | dynamicWith p =>
      have e : pathOf f = some (f.1, p) := by simp [pathOf, hk]
      rw [List.filterMap_cons_some e]
      simp [newArg, hk]

end ctor

section enum
variable {P : Type}

def argFold (s : EnumAttrs P) : List (EnumArg P) → Option (EnumAttrs P)
  | [] => some s
  | a :: as => (s.tok (.arg a)).bind fun s => argFold s as

theorem argFold_append (s : EnumAttrs P) (l r : List (EnumArg P)) :
    argFold s (l ++ r) = (argFold s l).bind fun s => argFold s r := by
  induction l generalizing s with
  | nil => rfl
  | cons a l ih =>
    simp only [List.cons_append, argFold]
    cases s.tok (.arg a) with
    | none => rfl
    | some s => simp [ih]

theorem parse_false (s s' : EnumAttrs P) (toks : List (EnumTok P)) :
    EnumAttrs.parse false s toks = some s' ↔
      ∃ args : List (EnumArg P), toks = args.flatMap (fun a => [.comma, .arg a]) ∧ argFold s args = some s' := by
  induction h : toks.length using Nat.strongRecOn generalizing s toks with
  | ind n ih =>
    match toks with
    | [] =>
      constructor
      · intro h; exact ⟨[], rfl, by simpa [EnumAttrs.parse, argFold] using h⟩
      · rintro ⟨args, ha, hf⟩
        cases args with
        | nil => simpa [EnumAttrs.parse, argFold] using hf
        | cons a as => simp at ha
    | [t] =>
      constructor
      · intro h; cases t <;> simp [EnumAttrs.parse] at h
      · rintro ⟨args, ha, hf⟩
        cases args with
        | nil => simp at ha
        | cons a as => simp at ha
    | .arg a :: t' :: ts =>
      constructor
      · intro h; simp [EnumAttrs.parse] at h
      · rintro ⟨args, ha, hf⟩
        cases args with
        | nil => simp at ha
        | cons a as => simp at ha
    | .comma :: t' :: ts =>
      have step : EnumAttrs.parse false s (.comma :: t' :: ts) =
          (s.tok t').bind fun s => EnumAttrs.parse false s ts := by simp [EnumAttrs.parse]
      rw [step]
      cases t' with
      | comma =>
        constructor
        · intro h; simp [EnumAttrs.tok] at h
        · rintro ⟨args, ha, hf⟩
          cases args with
          | nil => simp at ha
          | cons a as => simp at ha
      | arg a =>
        constructor
        · intro h'
          obtain ⟨s1, h1, h2⟩ := Option.bind_eq_some_iff.1 h'
          obtain ⟨args, ha, hf⟩ := (ih ts.length (by simp at h; omega) s1 ts rfl).1 h2
          exact ⟨a :: args, by simp [ha], by simp [argFold, h1, hf]⟩
        · rintro ⟨args, ha, hf⟩
          cases args with
          | nil => simp at ha
          | cons b bs =>
            simp only [List.flatMap_cons, List.cons_append, List.nil_append, List.cons.injEq, true_and,
              EnumTok.arg.injEq] at ha
            obtain ⟨rfl, rfl⟩ := ha
            simp only [argFold] at hf
            obtain ⟨s1, h1, h2⟩ := Option.bind_eq_some_iff.1 hf
            rw [h1]
            exact (ih _ (by rw [← h]; simp only [List.length_cons]; omega) s1 _ rfl).2 ⟨bs, rfl, h2⟩

theorem writtenArgs_cons (a : EnumArg P) (as : List (EnumArg P)) :
    writtenArgs (a :: as) = .arg a :: as.flatMap (fun a => [.comma, .arg a]) := by
  induction as generalizing a with
  | nil => rfl
  | cons b bs ih =>
    have : writtenArgs (a :: b :: bs) = .arg a :: .comma :: writtenArgs (b :: bs) := by
      simp [writtenArgs]
    rw [this, ih b]
    rfl

theorem parse_true (s s' : EnumAttrs P) (toks : List (EnumTok P)) :
    EnumAttrs.parse true s toks = some s' ↔
      ∃ args : List (EnumArg P), toks = writtenArgs args ∧ argFold s args = some s' := by
  cases toks with
  | nil =>
    constructor
    · intro h; exact ⟨[], rfl, by simpa [EnumAttrs.parse, argFold] using h⟩
    · rintro ⟨args, ha, hf⟩
      cases args with
      | nil => simpa [EnumAttrs.parse, argFold] using hf
      | cons a as => rw [writtenArgs_cons] at ha; simp at ha
  | cons t ts =>
    have step : EnumAttrs.parse true s (t :: ts) = (s.tok t).bind fun s => EnumAttrs.parse false s ts := by
      rw [EnumAttrs.parse.eq_def]; simp
    rw [step]
    cases t with
    | comma =>
      constructor
      · intro h; simp [EnumAttrs.tok] at h
      · rintro ⟨args, ha, hf⟩
        cases args with
        | nil => simp [writtenArgs] at ha
        | cons a as => rw [writtenArgs_cons] at ha; simp at ha
    | arg a =>
      constructor
      · intro h
        obtain ⟨s1, h1, h2⟩ := Option.bind_eq_some_iff.1 h
        obtain ⟨args, ha, hf⟩ := (parse_false s1 s' ts).1 h2
        exact ⟨a :: args, by rw [writtenArgs_cons, ha], by simp [argFold, h1, hf]⟩
      · rintro ⟨args, ha, hf⟩
        cases args with
        | nil => simp [writtenArgs] at ha
        | cons b bs =>
          rw [writtenArgs_cons] at ha
          simp only [List.cons.injEq, EnumTok.arg.injEq] at ha
          obtain ⟨rfl, rfl⟩ := ha
          simp only [argFold] at hf
          obtain ⟨s1, h1, h2⟩ := Option.bind_eq_some_iff.1 hf
          rw [h1]
          exact (parse_false s1 s' _).2 ⟨bs, rfl, h2⟩

theorem parseAttrs_iff (s s' : EnumAttrs P) (attrs : List (List (EnumTok P))) :
    s.parseAttrs attrs = some s' ↔
      ∃ argss : List (List (EnumArg P)), attrs = argss.map writtenArgs ∧ argFold s argss.flatten = some s' := by
  induction attrs generalizing s with
  | nil =>
    constructor
    · intro h; exact ⟨[], rfl, by simpa [EnumAttrs.parseAttrs, argFold] using h⟩
    · rintro ⟨argss, ha, hf⟩
      cases argss with
      | nil => simpa [EnumAttrs.parseAttrs, argFold] using hf
      | cons a as => simp at ha
  | cons t ts ih =>
    simp only [EnumAttrs.parseAttrs]
    constructor
    · intro h
      obtain ⟨s1, h1, h2⟩ := Option.bind_eq_some_iff.1 h
      obtain ⟨args, ha, hf⟩ := (parse_true s s1 t).1 h1
      obtain ⟨argss, ha', hf'⟩ := (ih s1).1 h2
      exact ⟨args :: argss, by simp [ha, ha'], by rw [List.flatten_cons, argFold_append, hf]; exact hf'⟩
    · rintro ⟨argss, ha, hf⟩
      cases argss with
      | nil => simp at ha
      | cons args argss =>
        simp only [List.map_cons, List.cons.injEq] at ha
        rw [List.flatten_cons, argFold_append] at hf
        obtain ⟨s1, h1, h2⟩ := Option.bind_eq_some_iff.1 hf
        exact Option.bind_eq_some_iff.2 ⟨s1, (parse_true s s1 t).2 ⟨args, ha.1, h1⟩, (ih s1).2 ⟨argss, ha.2, h2⟩⟩

theorem parseRenameAll_iff (s : Bytes) (c : RenameAll) : parseRenameAll s = some c ↔ (s, c) ∈ caseNames := by
  unfold parseRenameAll caseNames
  constructor
  · intro h
    split at h
    · rename_i e; cases h; simp [e]
    split at h
    · rename_i e; cases h; simp [e]
    split at h
    · rename_i e; cases h; simp [e]
    split at h
    · rename_i e; cases h; simp [e]
    split at h
    · rename_i e; cases h; simp [e]
    split at h
    · rename_i e; cases h; simp [e]
    split at h
    · rename_i e; cases h; simp [e]
    split at h
    · rename_i e; cases h; simp [e]
    · cases h
  · intro h
    simp only [List.mem_cons, Prod.mk.injEq, List.not_mem_nil, or_false] at h
    rcases h with ⟨rfl, rfl⟩ | ⟨rfl, rfl⟩ | ⟨rfl, rfl⟩ | ⟨rfl, rfl⟩ | ⟨rfl, rfl⟩ | ⟨rfl, rfl⟩ | ⟨rfl, rfl⟩ | ⟨rfl, rfl⟩ <;>
      decide

structure EHolds (s : EnumAttrs P) (krates : List P) (renames : List Bytes) (singles : List Bytes) : Prop where
  k1 : krates.length ≤ 1
  k2 : s.krate = krates.head?
  r1 : renames.length ≤ 1
  r2 : ∀ r ∈ renames, (parseRenameAll r).isSome
  r3 : s.renameAll = renames.head?.bind parseRenameAll
  s1 : singles.length ≤ 1
  s2 : s.singleton = singles.head?

def EGood (krates : List P) (renames : List Bytes) (singles : List Bytes) : Prop :=
  krates.length ≤ 1 ∧ renames.length ≤ 1 ∧ (∀ r ∈ renames, (parseRenameAll r).isSome) ∧ singles.length ≤ 1

theorem EGood.prefix {krates krates' : List P} {renames renames' singles singles'}
    (h : EGood (krates ++ krates') (renames ++ renames') (singles ++ singles')) : EGood krates renames singles := by
  simp only [EGood, List.length_append] at *
  exact ⟨by omega, by omega, fun r hr => h.2.2.1 r (by simp [hr]), by omega⟩

theorem enumArg_holds {s : EnumAttrs P} {krates renames singles} (h : EHolds s krates renames singles) (a : EnumArg P) :
    (∀ s', s.tok (.arg a) = some s' → a ≠ .bad ∧ EHolds s' (krates ++ (krateArg a).toList)
      (renames ++ (renameAllArg a).toList) (singles ++ (singletonArg a).toList)) ∧
    (s.tok (.arg a) = none → a = .bad ∨ ¬ EGood (krates ++ (krateArg a).toList)
      (renames ++ (renameAllArg a).toList) (singles ++ (singletonArg a).toList)) := by
  obtain ⟨k1, k2, r1, r2, r3, s1, s2⟩ := h
  obtain ⟨k, r, t⟩ := s
  simp only at k2 r3 s2
  subst k2 r3 s2
  cases a with
  | bad => exact ⟨fun s' h => by simp [EnumAttrs.tok] at h, fun _ => .inl rfl⟩
  | krate p =>
    simp only [EnumAttrs.tok, krateArg, renameAllArg, singletonArg, Option.toList, List.append_nil]
    rcases krates with _ | ⟨x, xs⟩ <;> simp [EGood]
    exact ⟨by simp, rfl, r1, r2, rfl, s1, rfl⟩
  | singleton p =>
    simp only [EnumAttrs.tok, krateArg, renameAllArg, singletonArg, Option.toList, List.append_nil]
    rcases singles with _ | ⟨x, xs⟩ <;> simp [EGood]
    exact ⟨k1, rfl, r1, r2, rfl, by simp, rfl⟩
  | renameAll n =>
    simp only [EnumAttrs.tok, krateArg, renameAllArg, singletonArg, Option.toList, List.append_nil]
    cases hn : parseRenameAll n with
    | none =>
      refine ⟨fun s' h => by simp at h, fun _ => .inr fun hg => ?_⟩
      have := hg.2.2.1 n (by simp)
      simp [hn] at this
    | some c =>
      rcases renames with _ | ⟨x, xs⟩
      · simp
        exact ⟨k1, rfl, by simp, by simp [hn], by simp [hn], s1, rfl⟩
      · obtain ⟨d, hd⟩ := Option.isSome_iff_exists.1 (r2 x (by simp))
        simp [hd, EGood]

theorem argFold_holds {s : EnumAttrs P} {krates renames singles} (h : EHolds s krates renames singles)
    (as : List (EnumArg P)) :
    (∀ s', argFold s as = some s' → .bad ∉ as ∧ EHolds s' (krates ++ as.filterMap krateArg)
      (renames ++ as.filterMap renameAllArg) (singles ++ as.filterMap singletonArg)) ∧
    (argFold s as = none → .bad ∈ as ∨ ¬ EGood (krates ++ as.filterMap krateArg)
      (renames ++ as.filterMap renameAllArg) (singles ++ as.filterMap singletonArg)) := by
  induction as generalizing s krates renames singles with
  | nil =>
    refine ⟨fun s' h' => ?_, fun h' => by simp [argFold] at h'⟩
    simp only [argFold, Option.some.injEq] at h'
    subst h'
    simpa using h
  | cons a as ih =>
    simp only [argFold, filterMap_cons', ← List.append_assoc]
    cases ha : s.tok (.arg a) with
    | none =>
      refine ⟨fun s' h' => by simp at h', fun _ => ?_⟩
      rcases (enumArg_holds h a).2 ha with rfl | hn
      · exact .inl (by simp)
      · exact .inr fun hg => hn hg.prefix
    | some s1 =>
      obtain ⟨hb, h1⟩ := (enumArg_holds h a).1 s1 ha
      obtain ⟨i1, i2⟩ := ih h1
      simp only [Option.bind_some]
      refine ⟨fun s' h' => ?_, fun h' => ?_⟩
      · have := i1 s' h'
        exact ⟨by simp [this.1, Ne.symm hb], this.2⟩
      · rcases i2 h' with h2 | h2
        · exact .inl (by simp [h2])
        · exact .inr h2

theorem argFold_iff (args : List (EnumArg P)) (s' : EnumAttrs P) :
    argFold ⟨none, none, none⟩ args = some s' ↔ EnumArgsOk args ∧
      s'.krate = (args.filterMap krateArg).head? ∧ s'.singleton = (args.filterMap singletonArg).head? ∧
      s'.renameAll = (args.filterMap renameAllArg).head?.bind parseRenameAll := by
  have h0 : EHolds (⟨none, none, none⟩ : EnumAttrs P) [] [] [] :=
    ⟨by simp, rfl, by simp, by simp, rfl, by simp, rfl⟩
  obtain ⟨i1, i2⟩ := argFold_holds h0 args
  simp only [List.nil_append] at i1 i2
  have doc : ∀ r, (parseRenameAll r).isSome ↔ ∃ c, (r, c) ∈ caseNames := by
    intro r
    rw [Option.isSome_iff_exists]
    exact exists_congr fun c => parseRenameAll_iff r c
  cases hs : argFold (⟨none, none, none⟩ : EnumAttrs P) args with
  | none =>
    simp only [reduceCtorEq, false_iff, not_and]
    intro hok
    rcases i2 hs with h | h
    · exact absurd h hok.known
    · exact absurd ⟨hok.krate, hok.renameAll, fun r hr => (doc r).2 (hok.documented r hr), hok.singleton⟩ h
  | some s =>
    obtain ⟨hb, h⟩ := i1 s hs
    have ok : EnumArgsOk args := ⟨hb, h.k1, h.r1, h.s1, fun r hr => (doc r).1 (h.r2 r hr)⟩
    obtain ⟨sk, sr, ss⟩ := s
    obtain ⟨tk, tr, ts⟩ := s'
    have e1 := h.k2; have e2 := h.r3; have e3 := h.s2
    simp only at e1 e2 e3
    simp only [Option.some.injEq, EnumAttrs.mk.injEq, ← e1, ← e2, ← e3]
    constructor
    · rintro ⟨rfl, rfl, rfl⟩; exact ⟨ok, rfl, rfl, rfl⟩
    · rintro ⟨_, rfl, rfl, rfl⟩; exact ⟨rfl, rfl, rfl⟩

end enum
end Measured.Derive
