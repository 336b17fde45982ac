import Verif.Proof.Group
import Verif.Props.Name
import Verif.Props.Text

/-! # Properties of metric groups (C41) -/

namespace Measured
open Measured.Spec

/-- C41. Whatever the tree of derived, composed, optional, namespaced and flattened groups: for every encoder,
collection makes exactly the calls of the items in declaration order (`runAll`: one after the other, stopping at
the first error), namespaces from the outside in. The vectors are such as programs produce, and the namespace
attributes are valid (see `C41_bad_namespace_panics`). -/
theorem C41_collect (g : Group) (hl : ∀ it ∈ items g, ItemLive it)
    (hn : ∀ ns ∈ fieldNamespaces g, MetricNameRe ns) :
    ∃ css, List.Forall₂ ItemCalls (items g) css ∧
      ∀ (E : Type) (enc : Encoder E), g.collect enc = enc.runAll css.flatten :=
  group_calls g hl fun ns h => (C38_from_str ns).1.2 (hn ns h)

theorem inPath_parts (path : List Bytes) (name : Bytes) :
    (inPath path (.str name)).namespaces = path ∧ (inPath path (.str name)).base = name ∧
      (inPath path (.str name)).suffixes = [] := by
  induction path with
  | nil => exact ⟨rfl, rfl, rfl⟩
  | cons p ps ih =>
    refine ⟨?_, ih.2.1, ih.2.2⟩
    show p :: (inPath ps (.str name)).namespaces = _
    rw [ih.1]

/-- C41, names: what any encoder writes for the name of an item is the namespaces from the outside in, joined with
underscores, and the field's name; and that is a valid metric name if its parts are. -/
theorem C41_names (path : List Bytes) (name buf : Bytes) :
    ((inPath path (.str name)).encodeUtf8 : RS Bytes Unit) buf = (.ok (), buf ++ qualifiedName path name []) ∧
    ((∀ p ∈ path, MetricNameRe p) → MetricNameRe name → MetricNameRe (qualifiedName path name [])) := by
  obtain ⟨h1, h2, h3⟩ := inPath_parts path name
  refine ⟨?_, fun hp hb => ?_⟩
  · rw [C40_composition, h1, h2, h3]; rfl
  · have := C40_valid (inPath path (.str name)) (fun x hx => (C38_from_str x).1.2 (hp x (by rwa [h1] at hx)))
      (by rw [h2]; exact (C38_from_str name).1.2 hb)
    rw [h1, h2, h3] at this
    exact this

/-- C41, errors: with an encoder that fails at its `k`-th call (and not before), exactly the first `k + 1` calls are
made and the error is returned; if no call fails, all calls are made. -/
theorem C41_first_error (g : Group) (hl : ∀ it ∈ items g, ItemLive it)
    (hn : ∀ ns ∈ fieldNamespaces g, MetricNameRe ns) :
    ∃ css, List.Forall₂ ItemCalls (items g) css ∧ ∀ fail : Nat → Bool,
      ((∀ i < css.flatten.length, fail i = false) → g.collect (recorder fail) [] = (.ok (), css.flatten)) ∧
      ∀ k < css.flatten.length, (∀ i < k, fail i = false) → fail k = true →
        g.collect (recorder fail) [] = (.err, css.flatten.take (k + 1)) := by
  obtain ⟨css, h1, h2⟩ := C41_collect g hl hn
  refine ⟨css, h1, fun fail => ⟨fun hf => ?_, fun k hk hf hk' => ?_⟩⟩
  · rw [h2, recorder_ok fail css.flatten [] (by simpa using hf)]; rfl
  · rw [h2, recorder_err fail css.flatten [] k hk (by simpa using hf) (by simpa using hk')]; rfl

/-- C41 is false for an absent `Option` metric with a doc comment: its help text is written all the same. -/
theorem C41_absent_refuted : ∃ name docs,
    MetricNameRe name ∧ items (.derived (.metric name docs .absent .nil)) = [.field [] name docs .absent] ∧
      (Group.derived (.metric name docs .absent .nil)).collect (recorder fun _ => false) [] =
        (.ok (), [.help (.str name) b!"Bytes sent"]) := by
  refine ⟨b!"sent", [[' ', 'B', 'y', 't', 'e', 's', ' ', 's', 'e', 'n', 't']], ?_, rfl, by rfl⟩
  exact (C38_from_str _).1.1 (by decide)

/-- C41 for absent options without doc comment, at any depth of `Option`s (missing: with doc comment, for which it
is false): they contribute no call; nor does an absent group. -/
theorem C41_absent_partial {path : List Bytes} {name : Bytes} {f : Fam} {cs : List EncCall} (hf : Shows f none)
    (h : ItemCalls (.field path name [] f) cs) : cs = [] ∧ items .absent = [] := by
  refine ⟨?_, rfl⟩
  cases h with
  | field hh hs =>
    have hn : ∀ {f : Fam} {o o' : Option (Kind × List (Labels × Metric))}, Shows f o → Shows f o' → o = none →
        o' = none := by
      intro f o o' h1
      induction h1 with
      | metric x => intro _ h; cases h
      | vec _ _ => intro _ h; cases h
      | absent => intro h2 _; cases h2; rfl
      | present _ ih => intro h2 h; cases h2 with | present h2 => exact ih h2 h
    rw [hn hf hs rfl]
    rcases hh with ⟨_, rfl⟩ | ⟨h, _⟩
    · rfl
    · exact absurd rfl h

/-- An invalid `namespace` attribute is not found when compiling: it panics at each collection, at that field. -/
theorem C41_bad_namespace_panics {E : Type} (enc : Encoder E) (e : E) (ns : Bytes) (g : Group) (rest : Fields)
    (h : ¬ MetricNameRe ns) : (Group.derived (.namespaced ns g rest)).collect enc e = (.panic, e) := by
  rw [Group.collect, Fields.collect, (C38_from_str ns).2.2 h]
  rfl

/-- What an item needs to be shown faithfully by the text encoder (compare `C33_exposition_partial`). -/
def ItemOk : Item → Prop
  | .field path name docs f => ∀ help o, HelpOf docs help → Shows f o →
      ∃ k ss, o = some (k, ss) ∧ FamilyOk ⟨inPath path (.str name), help, k, ss⟩
  | .manual _ _ => False

/-- The family that an item stands for. -/
inductive Spec.ItemFamily : Item → FamilyIn → Prop where
  | mk {path : List Bytes} {name : Bytes} {docs : List (List Char)} {f : Fam} {help : Option Bytes} {k : Kind}
      {ss : List (Labels × Metric)} {fam : FamilyIn} : HelpOf docs help → Shows f (some (k, ss)) →
      fam.name.text = qualifiedName path name [] → fam.help = help → fam.kind = k → fam.samples = ss →
      Spec.ItemFamily (.field path name docs f) fam

/-- C41 with C33: the text scrape of a group reads back as the families of its items, in order, each with its
qualified name, help, type and samples (missing: what C33 misses, hand-written groups and absent metrics). -/
theorem C41_text_partial {ryu : F64 → Bytes} {rf : Bytes → Option F64} (F : FloatText ryu rf) (m : Mode) (g : Group)
    (hl : ∀ it ∈ items g, ItemLive it) (hn : ∀ ns ∈ fieldNamespaces g, MetricNameRe ns)
    (hok : ∀ it ∈ items g, ItemOk it) :
    ∃ st out fams gs, g.collect (textEncoder m ryu) (TextEnc.new []) = (.ok (), ⟨st, out⟩) ∧
      List.Forall₂ Spec.ItemFamily (items g) fams ∧ readFamilies rf out = some gs ∧
      List.Forall₂ (fun f g => FamilyReads rf f.name.text f g) fams gs := by
  obtain ⟨css, h1, h2⟩ := C41_collect g hl hn
  have key : ∀ (its : List Item) (css : List (List EncCall)), List.Forall₂ ItemCalls its css →
      (∀ it ∈ its, ItemOk it) → ∃ fams : List FamilyIn, List.Forall₂ Spec.ItemFamily its fams ∧
        (∀ f ∈ fams, FamilyOk f) ∧ css.flatten = fams.flatMap FamilyIn.calls := by
    intro its css h
    induction h with
    | nil => intro _; exact ⟨[], .nil, by simp, rfl⟩
    | @cons it cs its css hd _ ih =>
      intro hok
      obtain ⟨fams, f1, f2, f3⟩ := ih fun it h => hok it (by simp [h])
      have h0 := hok it (by simp)
      cases hd with
      | manual => exact absurd h0 id
      | @field path name docs f help o hh hs =>
        obtain ⟨k, ss, rfl, hfam⟩ := h0 help o hh hs
        refine ⟨⟨inPath path (.str name), help, k, ss⟩ :: fams, .cons ⟨hh, hs, ?_, rfl, rfl, rfl⟩ f1, ?_, ?_⟩
        · obtain ⟨p1, p2, p3⟩ := inPath_parts path name
          rw [Name.text, p1, p2, p3]; rfl
        · intro x hx
          rcases List.mem_cons.1 hx with rfl | hx
          · exact hfam
          · exact f2 x hx
        · rw [List.flatten_cons, List.flatMap_cons, f3]; rfl
  obtain ⟨fams, f1, f2, f3⟩ := key _ css h1 hok
  obtain ⟨st, out, gs, _, hrun, hread, hfam, _⟩ := C33_exposition_partial F m fams f2
  exact ⟨st, out, fams, gs, by rw [h2, f3]; exact hrun, f1, hread, hfam⟩

/-! ## A group -/

/-- ```
struct Http { #[metric(rename = "errors")] errs: CounterVec<{Get, Post}> }
struct App { /// all events
  events: Counter, #[metric(namespace = "http")] http: Http, #[metric(flatten)] extra: Option<…>, cool: Option<Gauge> }
WithNamespace::new("app", App { … })
``` -/
def exGroup (v : MetricVec Unit Nat Nat) : Group :=
  .namespaced b!"app" (.derived
    (.metric b!"events" [[' ', 'a', 'l', 'l'], [' ', 'e', 'v', 'e', 'n', 't', 's']] (.metric (.counter 7))
    (.namespaced b!"http" (.derived (.metric b!"errors" []
      (.vec (staticGroupSet ["Get", "Post"]) (fun g => [(b!"method", .str g.toUTF8.toList)]) .counter .counter v) .nil))
    (.flatten .absent
    (.metric b!"cool" [] .absent .nil)))))

/-- The vector of the example after three updates. -/
def exLive : MetricVec Unit Nat Nat :=
  (ran .release (fun _ => 77) 0 (staticGroupSet ["Get", "Post"]) exV
    [.update "Post" (· + 3), .update "Get" (· + 5), .update "Post" (· + 1)]).vec

theorem exGroup_live : ∀ it ∈ items (exGroup exLive), ItemLive it := by
  intro it hi
  have h : items (exGroup exLive) = [.field [b!"app"] b!"events" _ (.metric (.counter 7)),
      .field [b!"app", b!"http"] b!"errors" []
        (.vec (staticGroupSet ["Get", "Post"]) (fun g => [(b!"method", .str g.toUTF8.toList)]) .counter .counter exLive),
      .field [b!"app"] b!"cool" [] .absent] := rfl
  rw [h] at hi
  simp only [List.mem_cons, List.not_mem_nil, or_false] at hi
  rcases hi with rfl | rfl | rfl
  · exact .metric _
  · exact .vec ⟨inferInstance, inferInstance, .release, 1, fun _ => 77, 0, fun _ => True, fun _ _ => True,
      fun _ u => u < 2, (), false, exV, _, by decide, by decide,
      staticGroupSet_laws _ (by decide) (by decide) _ _ (fun _ => trivial) (fun _ _ _ _ _ => trivial), trivial,
      .sparse (by rfl), rfl, rfl⟩
  · exact .absent

example : ∀ ns ∈ fieldNamespaces (exGroup exLive), MetricNameRe ns := by
  intro ns h
  have : fieldNamespaces (exGroup exLive) = [b!"http"] := rfl
  rw [this, List.mem_singleton] at h
  subst h
  exact (C38_from_str _).1.1 (by decide)

example : ((exGroup exLive).collect (recorder fun _ => false) []).2 =
    [.help (.ns b!"app" (.str b!"events")) b!"all events", .type .counter (.ns b!"app" (.str b!"events")),
     .sample (.counter 7) [] (.ns b!"app" (.str b!"events")),
     .type .counter (.ns b!"app" (.ns b!"http" (.str b!"errors"))),
     .sample (.counter 5) [(b!"method", .str b!"Get")] (.ns b!"app" (.ns b!"http" (.str b!"errors"))),
     .sample (.counter 4) [(b!"method", .str b!"Post")] (.ns b!"app" (.ns b!"http" (.str b!"errors")))] := by
  decide +kernel

example : ((exGroup exLive).collect (textEncoder .debug exRyu) (TextEnc.new [])).2.writer =
    b!"# HELP app_events all events\n# TYPE app_events counter\napp_events 7\n\n# TYPE app_http_errors counter\napp_http_errors{method=\"Get\"} 5\napp_http_errors{method=\"Post\"} 4\n" := by
  decide +kernel

/-- A group that meets the hypotheses of `C41_text_partial`. -/
example : ∀ it ∈ items (.namespaced b!"app" (.derived (.metric b!"events" [[' ', 'a']] (.metric (.counter 7)) .nil))),
    ItemOk it ∧ ItemLive it := by
  intro it hi
  have h : items (.namespaced b!"app" (.derived (.metric b!"events" [[' ', 'a']] (.metric (.counter 7)) .nil))) =
      [.field [b!"app"] b!"events" [[' ', 'a']] (.metric (.counter 7))] := rfl
  rw [h, List.mem_singleton] at hi
  subst hi
  refine ⟨?_, .metric _⟩
  intro help o hh hs
  cases hs
  refine ⟨_, _, rfl, ⟨?_, ?_, ?_, ?_, ?_⟩⟩
  · have := (C41_names [b!"app"] b!"events" []).2
      (by intro p hp; rw [List.mem_singleton] at hp; subst hp; exact (C38_from_str _).1.1 (by decide))
      ((C38_from_str _).1.1 (by decide))
    exact this
  · intro t ht
    simp only at ht
    rcases hh with ⟨h, _⟩ | ⟨_, u, hu, h6⟩
    · cases h
    · rw [h6, trimmed_unique hu] at ht
      injection ht with ht
      subst ht
      exact ⟨by decide, by decide, fun b bs h => by cases h; rfl⟩
  · intro s hs; simp at hs; subst hs; rfl
  · intro s hs; simp at hs; subst hs; intro l hl; cases hl
  · intro s hs; simp at hs; subst hs; show 7 < 2 ^ 63; decide

end Measured
