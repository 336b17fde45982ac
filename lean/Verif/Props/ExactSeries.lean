import Verif.Props.Exact
import Verif.Props.Types
import Verif.Props.Group
import Verif.Props.Histogram

/-! # When exactly the partial claims about families hold (C27, C41, C52, C56) -/

namespace Measured
open Spec

/-! ## C27 -/

/-- C27, exactly: `with_buckets` returns its argument if that is not empty and strictly increasing, and panics otherwise. -/
theorem C27_iff (m : Mode) (b : List F64) :
    (∀ b', withBuckets m b = .ok b' ↔ b' = b ∧ b ≠ [] ∧ StrictlyIncreasing b) ∧
    (withBuckets m b = .panic ↔ b = [] ∨ ¬ StrictlyIncreasing b) := by
  by_cases hb : b = []
  · subst hb
    have h := (C27_with_buckets_empty_refuted m).2
    simp [h]
  · obtain ⟨h1, h2⟩ := C27_with_buckets_partial m b hb
    by_cases hs : StrictlyIncreasing b
    · simp [h1 hs, hb, hs, eq_comm]
    · simp [h2 hs, hs]

set_option exponentiation.threshold 3000 in
example : withBuckets .release [F64.one, F64.ofNat 2] = .ok [F64.one, F64.ofNat 2] := by decide +kernel
set_option exponentiation.threshold 3000 in
example : withBuckets .release [F64.one, F64.one] = .panic := by decide +kernel

/-! ## C41 -/

theorem shows_none {f : Fam} {o o' : Option (Kind × List (Labels × Metric))} (h1 : Shows f o) :
    Shows f o' → o = none → o' = none := by
  induction h1 with
  | metric x => intro _ h; cases h
  | vec _ _ => intro _ h; cases h
  | absent => intro h2 _; cases h2; rfl
  | present _ ih => intro h2 h; cases h2 with | present h2 => exact ih h2 h

/-- C41, exactly: a field contributes no calls if and only if its metric is absent and it has no doc comment; and an absent
metric with a doc comment contributes exactly its help text. -/
theorem C41_absent_iff {path : List Bytes} {name : Bytes} {docs : List (List Char)} {f : Fam} {cs : List EncCall}
    (h : ItemCalls (.field path name docs f) cs) :
    (cs = [] ↔ Shows f none ∧ docs = []) ∧
    (Shows f none → docs ≠ [] → ∃ t, Trimmed docs.flatten t ∧ cs = [.help (inPath path (.str name)) (utf8 t)]) := by
  cases h with
  | @field _ _ _ _ help o hh hs =>
    constructor
    · constructor
      · intro hc
        cases o with
        | some p =>
          obtain ⟨k, ss⟩ := p
          simp [shownCalls, FamilyIn.calls] at hc
        | none =>
          refine ⟨hs, ?_⟩
          rcases hh with ⟨h, _⟩ | ⟨_, t, _, rfl⟩
          · exact h
          · simp [shownCalls] at hc
      · rintro ⟨h1, h2⟩
        rw [shows_none h1 hs rfl]
        rcases hh with ⟨_, rfl⟩ | ⟨h, _⟩
        · rfl
        · exact absurd h2 h
    · intro h1 h2
      rw [shows_none h1 hs rfl]
      rcases hh with ⟨h, _⟩ | ⟨_, t, ht, rfl⟩
      · exact absurd h h2
      · exact ⟨t, ht, rfl⟩

instance : DecidablePred WhiteSpace := fun c => by unfold WhiteSpace; infer_instance

example : ItemCalls (.field [b!"io"] b!"sent" [[' ', 'B']] (.present .absent))
    [.help (.ns b!"io" (.str b!"sent")) b!"B"] :=
  .field (.inr ⟨by simp, ['B'], ⟨[' '], [], rfl, by decide, by simp, by decide, by decide⟩, rfl⟩) (.present .absent)

/-! ## C52 -/

/-- The families that have a type, with their names and types. -/
def Spec.typedOf (fs : List Family) : List (Bytes × TypeWord) := fs.filterMap fun f => f.type.map (f.name, ·)

/-- The TYPE calls, with the text of their names. -/
def Spec.typeCalls (cs : List EncCall) : List (Bytes × TypeWord) :=
  cs.filterMap fun
    | .type k n => some (n.text, kindWord k)
    | _ => none

def typeLines (ls : List Line) : List (Bytes × TypeWord) :=
  ls.filterMap fun
    | .type n t => some (n, t)
    | _ => none

theorem typeLines_append (a b : List Line) : typeLines (a ++ b) = typeLines a ++ typeLines b := List.filterMap_append

theorem callsLines_types {rf : Bytes → Option F64} {prev : Bool} {cs : List EncCall} {ls : List Line}
    (h : CallsLines rf Name.text prev cs ls) : typeLines ls = typeCalls cs := by
  induction h with
  | nil => rfl
  | @cons prev c cs l ls h1 _ ih =>
    rw [typeLines_append, typeLines_append, ih]
    have hb : typeLines (if prev && !c.isSample then [.blank] else []) = [] := by split <;> rfl
    rw [hb, List.nil_append]
    cases h1 with
    | help n t => rfl
    | type k n => rfl
    | @sample x ls' n ss h =>
      have : typeLines (ss.map .sample) = [] := by
        unfold typeLines
        rw [List.filterMap_map]
        exact List.filterMap_eq_nil_iff.2 fun _ _ => rfl
      rw [this]
      rfl

theorem consume_typed (ls : List Line) (acc : List Family) :
    typedOf (ls.foldl consume acc).reverse = typedOf acc.reverse ++ typeLines ls := by
  induction ls generalizing acc with
  | nil => simp [typeLines]
  | cons l ls ih =>
    rw [List.foldl_cons, ih]
    have key : typedOf (consume acc l).reverse = typedOf acc.reverse ++ typeLines [l] := by
      cases l with
      | blank => simp [consume, typeLines]
      | help n t => simp [consume, typeLines, typedOf]
      | type n t =>
        cases acc with
        | nil => rfl
        | cons f fs =>
          simp only [consume]
          split
          · rename_i h
            simp [typedOf, typeLines, h.2.1, h.1]
          · cases hf : f.type <;> simp [typedOf, typeLines, List.filterMap_cons, hf]
      | sample s =>
        cases acc with
        | nil => rfl
        | cons f fs =>
          simp only [consume]
          split <;> cases hf : f.type <;> simp [typedOf, typeLines, List.filterMap_cons, hf]
    rw [key, List.append_assoc, ← typeLines_append]
    rfl

/-- C52, exactly, for any calls of any collector: the families that are read with a type are, in order, those for which the
type was written. So every family has its type if and only if there are as many TYPE calls as families. -/
theorem C52_exact {ryu : F64 → Bytes} {rf : Bytes → Option F64} (F : FloatText ryu rf) (m : Mode)
    (cs : List EncCall) (h : ∀ c ∈ cs, CallOk c) :
    ∃ e gs, (textEncoder m ryu).runAll cs (TextEnc.new []) = (.ok (), e) ∧ readFamilies rf e.writer = some gs ∧
      typedOf gs = typeCalls cs ∧ ((∀ g ∈ gs, g.type ≠ none) ↔ (typeCalls cs).length = gs.length) := by
  obtain ⟨e, ls, h1, h2, h3⟩ := C50_lines F m cs h
  have key : typedOf (ls.foldl consume []).reverse = typeCalls cs := by
    rw [consume_typed, callsLines_types h3]
    rfl
  refine ⟨e, _, h1, by rw [readFamilies, h2]; rfl, key, ?_⟩
  rw [← key]
  generalize (ls.foldl consume []).reverse = gs
  have hle : (typedOf gs).length ≤ gs.length := List.length_filterMap_le _ _
  induction gs with
  | nil => simp [typedOf]
  | cons g gs ih =>
    have hle : (typedOf gs).length ≤ gs.length := List.length_filterMap_le _ _
    have ih := ih hle
    cases ht : g.type with
    | none =>
      simp only [List.mem_cons, forall_eq_or_imp, ht, ne_eq, not_true_eq_false, false_and, false_iff]
      simp only [typedOf, List.filterMap_cons, ht, Option.map_none, List.length_cons] at hle ⊢
      omega
    | some t =>
      simp only [List.mem_cons, forall_eq_or_imp, ht, ne_eq, reduceCtorEq, not_false_eq_true, true_and]
      rw [show (∀ a ∈ gs, ¬ a.type = none) ↔ _ from ih]
      simp only [typedOf, List.filterMap_cons, ht, Option.map_some, List.length_cons]
      omega

example : ∀ c ∈ [EncCall.help (.str b!"a") b!"text", .sample (.gauge 3) [] (.str b!"a"), .type .counter (.str b!"b")],
    CallOk c := by
  have ha : MetricNameRe b!"a" := (C38_from_str _).1.1 (by decide)
  have hb : MetricNameRe b!"b" := (C38_from_str _).1.1 (by decide)
  intro c hc
  simp only [List.mem_cons, List.not_mem_nil, or_false] at hc
  rcases hc with rfl | rfl | rfl
  · exact ⟨ha, by decide, by decide, by rintro b bs h; cases h; decide⟩
  · exact ⟨ha, fun l hl => (by cases hl), trivial⟩
  · exact hb

/-! ## C56 -/

/-- The same labels, in the same order, as far as they are written. -/
def Spec.WrittenAlike (ryu : F64 → Bytes) (a b : Labels) : Prop :=
  List.Forall₂ (fun x y => x.1 = y.1 ∧ (visitLabel ryu x.2 : RS Bytes Unit) [] = visitLabel ryu y.2 []) a b

theorem writtenAlike_iff (ryu : F64 → Bytes) (a b : Labels) : WrittenAlike ryu a b ↔ textsOf ryu a = textsOf ryu b := by
  unfold WrittenAlike textsOf
  simp only [visitLabel_same]
  induction a generalizing b with
  | nil => cases b <;> simp
  | cons x a ih => cases b <;> simp [ih, and_assoc]

theorem writtenOf_shape (n : Name) (ls : Labels) (x : Metric) :
    ∀ w ∈ writtenOf n ls x,
      (w.labels = ls ∧ (w.name = n ∧ x.kind ≠ .histogram ∨
        x.kind = .histogram ∧ (w.name = .suffix n .sum ∨ w.name = .suffix n .count))) ∨
      (x.kind = .histogram ∧ w.name = .suffix n .bucket ∧ ∃ b, w.labels = ls ++ [(b!"le", .float b)]) := by
  intro w hw
  cases x with
  | histogram le h =>
    rcases List.mem_append.1 hw with hw | hw
    · obtain ⟨i, hi⟩ := List.mem_iff_getElem?.1 hw
      rw [List.getElem?_mapIdx] at hi
      obtain ⟨b, _, rfl⟩ := Option.map_eq_some_iff.1 hi
      exact .inr ⟨rfl, rfl, _, rfl⟩
    · simp only [List.mem_cons, List.not_mem_nil, or_false] at hw
      rcases hw with rfl | rfl | rfl
      · exact .inr ⟨rfl, rfl, _, rfl⟩
      · exact .inl ⟨rfl, .inr ⟨rfl, .inl rfl⟩⟩
      · exact .inl ⟨rfl, .inr ⟨rfl, .inr rfl⟩⟩
  | _ =>
    rw [List.mem_singleton.1 hw]
    exact .inl ⟨rfl, .inl ⟨rfl, by simp [Metric.kind]⟩⟩

theorem cross_series (ryu : F64 → Bytes) (n : Name) {ls ls' : Labels} {x y : Metric} (names : List Bytes) (hk : x.kind = y.kind)
    (hl : ls.map Prod.fst = names) (hl' : ls'.map Prod.fst = names) (hd : names.Nodup)
    (hle : x.kind = .histogram → b!"le" ∉ names) :
    (∀ a ∈ (writtenOf n ls x).map (Written.sample ryu), ∀ b ∈ (writtenOf n ls' y).map (Written.sample ryu),
      ¬ SameSeries a b) ↔ textsOf ryu ls ≠ textsOf ryu ls' := by
  have hf : ∀ ls : Labels, (textsOf ryu ls).map Prod.fst = ls.map Prod.fst := by
    intro ls; simp [textsOf, Function.comp_def]
  constructor
  · intro h he
    have hpair : ∃ w ∈ writtenOf n ls x, ∃ w' ∈ writtenOf n ls' y, w.name = w'.name ∧ w.labels = ls ∧ w'.labels = ls' := by
      cases x <;> cases y <;> (try (exfalso; revert hk; simp [Metric.kind]; done))
      · exact ⟨_, List.mem_cons_self, _, List.mem_cons_self, rfl, rfl, rfl⟩
      · exact ⟨_, List.mem_cons_self, _, List.mem_cons_self, rfl, rfl, rfl⟩
      · exact ⟨_, List.mem_cons_self, _, List.mem_cons_self, rfl, rfl, rfl⟩
      · rename_i le st le' st'
        exact ⟨⟨.suffix n .sum, ls, .float st.sum⟩, List.mem_append.2 (.inr (by simp)),
          ⟨.suffix n .sum, ls', .float st'.sum⟩, List.mem_append.2 (.inr (by simp)), rfl, rfl, rfl⟩
    obtain ⟨w, hw, w', hw', h1, h2, h3⟩ := hpair
    refine h _ (List.mem_map_of_mem hw) _ (List.mem_map_of_mem hw') ⟨?_, fun l => ?_⟩
    · simp only [Written.sample, h1]
    · simp only [Written.sample, h2, h3, he]
  · intro hne a ha b hb hs
    obtain ⟨w, hw, rfl⟩ := List.mem_map.1 ha
    obtain ⟨w', hw', rfl⟩ := List.mem_map.1 hb
    obtain ⟨s1, s2⟩ := hs
    simp only [Written.sample] at s1 s2
    have hplain : w.labels = ls → w'.labels = ls' → False := by
      intro e1 e2
      rw [e1, e2] at s2
      exact hne (eq_of_same_members (by rw [hf, hf, hl, hl']) (by rw [hf, hl]; exact hd) s2)
    rcases writtenOf_shape n ls x w hw with ⟨e1, p1⟩ | ⟨k1, n1, b1, e1⟩ <;>
      rcases writtenOf_shape n ls' y w' hw' with ⟨e2, p2⟩ | ⟨k2, n2, b2, e2⟩
    · exact hplain e1 e2
    · rcases p1 with ⟨_, p1⟩ | ⟨_, p1 | p1⟩
      · exact p1 (hk.trans k2)
      · rw [p1, n2] at s1; simp [Name.render, Suffix.text] at s1
      · rw [p1, n2] at s1; simp [Name.render, Suffix.text] at s1
    · rcases p2 with ⟨_, p2⟩ | ⟨_, p2 | p2⟩
      · exact p2 (hk.symm.trans k1)
      · rw [p2, n1] at s1; simp [Name.render, Suffix.text] at s1
      · rw [p2, n1] at s1; simp [Name.render, Suffix.text] at s1
    · rw [e1, e2] at s2
      have hnd : ((textsOf ryu (ls ++ [(b!"le", .float b1)])).map Prod.fst).Nodup := by
        rw [hf, List.map_append, hl]
        refine List.nodup_append.2 ⟨hd, by simp, ?_⟩
        intro a ha c hc
        simp only [List.map_cons, List.map_nil, List.mem_singleton] at hc
        subst hc
        rintro rfl
        exact hle k1 ha
      have := eq_of_same_members (by rw [hf, hf, List.map_append, List.map_append, hl, hl']; rfl) hnd s2
      have hlen : (textsOf ryu ls).length = (textsOf ryu ls').length := by
        have := congrArg List.length (hl.trans hl'.symm)
        simpa [textsOf] using this
      simp only [textsOf, List.map_append] at this hlen hne
      exact hne (List.append_inj this (by simpa using hlen)).1

/-- C56, exactly, for whole families (a vector's scrape is one, C54): if all samples have the same distinct label names,
none of them `le` in a histogram, then no series is shown twice if and only if no two label groups are written alike and
the bounds of each histogram, together with `+Inf`, are distinct. -/
theorem C56_family_iff {ryu : F64 → Bytes} {rf : Bytes → Option F64} (F : FloatText ryu rf) (R : ReadsSpecial rf)
    (m : Mode) (f : FamilyIn) (names : List Bytes) (hn : MetricNameRe f.name.text) (ht : f.help = none)
    (hk : ∀ s ∈ f.samples, s.2.kind = f.kind) (hl : ∀ b ∈ names, LabelNameRe b)
    (hs : ∀ s ∈ f.samples, s.1.map Prod.fst = names ∧ Counts64 s.2) (hd : names.Nodup)
    (hle : f.kind = .histogram → b!"le" ∉ names) :
    ∃ e g, (textEncoder m ryu).runAll f.calls (TextEnc.new []) = (.ok (), e) ∧ readFamilies rf e.writer = some [g] ∧
      (SeriesDistinct g.samples ↔ (f.samples.Pairwise fun a b => ¬ WrittenAlike ryu a.1 b.1) ∧
        ∀ s ∈ f.samples, ∀ le h, s.2 = .histogram le h → ((le ++ [F64.inf false]).map canon).Nodup) := by
  obtain ⟨st, out, h1, _, h3, _⟩ := text_seen F m [f] (by simpa using hn) (by simp [ht]) (by simpa using hk)
    (by
      intro f' hf s hs' l hl'
      rw [List.mem_singleton.1 hf] at hs'
      refine hl _ ?_
      rw [← (hs s hs').1]
      exact List.mem_map_of_mem hl')
    (by intro f' hf s hs'; rw [List.mem_singleton.1 hf] at hs'; exact (hs s hs').2)
  refine ⟨⟨st, out⟩, famRead ryu (seen f), by simpa using h1, h3 (by simp [ht]), ?_⟩
  have e : (famRead ryu (seen f)).samples =
      f.samples.flatMap fun s => (writtenOf f.name s.1 s.2).map (Written.sample ryu) := by
    show (famWritten f).map (Written.sample ryu) = _
    unfold famWritten
    rw [List.map_flatMap]
  rw [e]
  unfold SeriesDistinct
  rw [List.pairwise_flatMap, and_comm]
  refine and_congr ?_ ?_
  · have : ∀ a ∈ f.samples, ∀ b ∈ f.samples,
        ((∀ x ∈ (writtenOf f.name a.1 a.2).map (Written.sample ryu), ∀ y ∈ (writtenOf f.name b.1 b.2).map (Written.sample ryu),
          ¬ SameSeries x y) ↔ ¬ WrittenAlike ryu a.1 b.1) := by
      intro a ha b hb
      rw [writtenAlike_iff]
      exact cross_series ryu f.name names ((hk a ha).trans (hk b hb).symm) (hs a ha).1 (hs b hb).1 hd
        (fun h => hle (hk a ha ▸ h))
    exact ⟨fun h => h.imp_of_mem fun ha hb hab => (this _ ha _ hb).1 hab,
      fun h => h.imp_of_mem fun ha hb hab => (this _ ha _ hb).2 hab⟩
  · refine forall₂_congr fun s hs' => ?_
    obtain ⟨ls, x⟩ := s
    cases x with
    | histogram le h =>
      have hk' := hk _ hs'
      rw [show (List.Pairwise _ _ ↔ _) from hist_series_iff F R le h f.name ls (by rw [(hs _ hs').1]; exact hd)
        (by rw [(hs _ hs').1]; exact hle hk'.symm)]
      constructor
      · rintro h1 le' h' e
        cases e
        exact h1
      · intro h1
        exact h1 le h rfl
    | _ => simp [writtenOf]

/-- Two histograms, whose labels are different, but written alike. -/
def exAlike : FamilyIn := ⟨.str b!"h", none, .histogram,
  [([(b!"k", .int 7)], .histogram [F64.one] ⟨[1], 0, F64.one⟩), ([(b!"k", .str b!"7")], .histogram [F64.one] ⟨[2], 5, F64.one⟩)]⟩

example : MetricNameRe exAlike.name.text ∧ (∀ b ∈ [b!"k"], LabelNameRe b) := by
  have hk : LabelNameRe b!"k" := ⟨0x6b, [], rfl, ⟨(0x61, 0x7a), by decide, by decide, by decide⟩, by simp⟩
  exact ⟨(C38_from_str _).1.1 (by decide), by simpa using hk⟩

example : (∀ s ∈ exAlike.samples, s.2.kind = exAlike.kind) ∧
    (∀ s ∈ exAlike.samples, s.1.map Prod.fst = [b!"k"] ∧ Counts64 s.2) ∧ b!"le" ∉ [b!"k"] := by
  refine ⟨by simp [exAlike, Metric.kind], ?_, by decide⟩
  intro s hs
  simp only [exAlike, List.mem_cons, List.not_mem_nil, or_false] at hs
  rcases hs with rfl | rfl
  · exact ⟨rfl, rfl, by decide⟩
  · exact ⟨rfl, rfl, by decide⟩

example (ryu : F64 → Bytes) : WrittenAlike ryu [(b!"k", .int 7)] [(b!"k", .str b!"7")] := by
  rw [writtenAlike_iff]
  have : itoa 7 = b!"7" := by decide +kernel
  simp [textsOf, labelText, this]

example (ryu : F64 → Bytes) : ¬ WrittenAlike ryu [(b!"k", .int 7)] [(b!"k", .str b!"8")] := by
  rw [writtenAlike_iff]
  have : itoa 7 = b!"7" := by decide +kernel
  simp [textsOf, labelText, this]

end Measured
