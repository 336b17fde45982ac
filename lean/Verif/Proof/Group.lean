import Verif.Spec.MetricGroup
import Verif.Props.MetricVec

/-! Metric groups make exactly the calls of their items. -/

namespace Measured
open Spec

theorem runAll_cons {E : Type} (enc : Encoder E) (c : EncCall) (cs : List EncCall) :
    enc.runAll (c :: cs) = enc.run c >>= fun _ => enc.runAll cs := rfl

theorem runAll_bind {E : Type} (enc : Encoder E) (a b : List EncCall) :
    enc.runAll (a ++ b) = enc.runAll a >>= fun _ => enc.runAll b := by
  induction a with
  | nil => rfl
  | cons c cs ih => rw [List.cons_append, runAll_cons, runAll_cons, ih, RS.bind_assoc']

theorem run_ns {E : Type} (enc : Encoder E) (ns : Bytes) (c : EncCall) :
    (enc.withNamespace ns).run c = enc.run (callInPath [ns] c) := by
  cases c <;> rfl

theorem runAll_ns {E : Type} (enc : Encoder E) (ns : Bytes) (cs : List EncCall) :
    (enc.withNamespace ns).runAll cs = enc.runAll (cs.map (callInPath [ns])) := by
  induction cs with
  | nil => rfl
  | cons c cs ih => rw [List.map_cons, runAll_cons, runAll_cons, ih, run_ns]

theorem callInPath_comp (ns : Bytes) (path : List Bytes) (c : EncCall) :
    callInPath [ns] (callInPath path c) = callInPath (ns :: path) c := by
  cases c <;> rfl

theorem shownCalls_ns (ns : Bytes) (n : Name) (help : Option Bytes)
    (o : Option (Kind × List (Labels × Metric))) :
    (shownCalls n help o).map (callInPath [ns]) = shownCalls (.ns ns n) help o := by
  cases o with
  | none => cases help <;> rfl
  | some q => cases help <;> simp [shownCalls, FamilyIn.calls, callInPath, inPath]

theorem Spec.ItemCalls.within {it : Item} {cs : List EncCall} (ns : Bytes) (h : ItemCalls it cs) :
    ItemCalls (it.within ns) (cs.map (callInPath [ns])) := by
  cases h with
  | field hh hs =>
    rw [shownCalls_ns]
    exact .field hh hs
  | @manual path calls =>
    rw [List.map_map]
    have : (callInPath [ns] ∘ callInPath path) = callInPath (ns :: path) := funext (callInPath_comp ns path)
    rw [this]
    exact .manual

theorem Spec.ItemLive.within {it : Item} {ns : Bytes} : ItemLive (it.within ns) ↔ ItemLive it := by
  cases it <;> rfl

theorem forall₂_within {its : List Item} {css : List (List EncCall)} (ns : Bytes)
    (h : List.Forall₂ ItemCalls its css) :
    List.Forall₂ ItemCalls (its.map (Item.within ns)) (css.map (List.map (callInPath [ns]))) := by
  induction h with
  | nil => exact .nil
  | cons hd _ ih => exact .cons (hd.within ns) ih

theorem flatten_map_map (css : List (List EncCall)) (f : EncCall → EncCall) :
    (css.map (List.map f)).flatten = css.flatten.map f := by
  induction css with
  | nil => rfl
  | cons c cs ih => rw [List.map_cons, List.flatten_cons, List.flatten_cons, List.map_append, ih]

theorem runAll_samples {E G M : Type} (enc : Encoder E) (n : Name) (visit : G → Labels) (view : M → Metric)
    (l : List (G × M)) :
    forEach (fun q : G × M => enc.sample (view q.2) (visit q.1) n) l =
      enc.runAll ((l.map fun q => (visit q.1, view q.2)).map fun s => .sample s.2 s.1 n) := by
  induction l with
  | nil => rfl
  | cons q qs ih => simp only [forEach, List.map_cons, runAll_cons, ih]; rfl

theorem fam_calls {f : Fam} (h : FamLive f) : ∃ o, Shows f o ∧
    ∀ (E : Type) (enc : Encoder E) (n : Name), f.collect enc n = enc.runAll (shownCalls n none o) := by
  induction h with
  | metric x =>
    refine ⟨_, .metric x, fun E enc n => ?_⟩
    simp only [Fam.collect, shownCalls, FamilyIn.calls, List.nil_append, List.map_cons, List.map_nil, runAll_cons]
    simp only [Encoder.run, Encoder.runAll]
    have : ∀ x : RS E Unit, (x >>= fun _ => pure ()) = x := by
      intro x; funext e; rw [RS.bind_run]; rcases hx : x e with ⟨o, e'⟩; cases o <;> rfl
    rw [this]
  | @vec S G U M t visit kind view v live hl =>
    obtain ⟨_, _, m, p, hasher, dflt, inv, le, valid, s, dense, v₀, ops, h0, hp, L, hs, hv, rfl, rfl⟩ := hl
    have hc := C15_collect_exactly_once m p h0 hp hasher dflt t inv le valid L s hs dense v₀ hv ops
    refine ⟨_, .vec ⟨_, _, m, p, hasher, dflt, inv, le, valid, s, dense, v₀, ops, h0, hp, L, hs, hv, rfl, rfl⟩ hc.2,
      fun E enc n => ?_⟩
    simp only [Fam.collect]
    refine (hc.1 E _ _).trans ?_
    rw [runAll_samples]
    rfl
  | absent => exact ⟨none, .absent, fun _ _ _ => rfl⟩
  | present _ ih =>
    obtain ⟨o, h1, h2⟩ := ih
    exact ⟨o, .present h1, fun E enc n => h2 E enc n⟩

/-! ## Doc comments -/

theorem mem_takeWhile' {p : Char → Bool} {c : Char} : ∀ {s : List Char}, c ∈ s.takeWhile p → p c = true
  | [], h => by simp at h
  | d :: s, h => by
    rw [List.takeWhile_cons] at h
    split at h
    · rcases List.mem_cons.1 h with rfl | h
      · assumption
      · exact mem_takeWhile' h
    · simp at h

theorem charIsWhitespace_iff (c : Char) : charIsWhitespace c = true ↔ WhiteSpace c := by
  simp only [charIsWhitespace, WhiteSpace, Bool.or_eq_true, Bool.and_eq_true, decide_eq_true_eq, beq_iff_eq, List.mem_cons,
    List.not_mem_nil, or_false]
  omega

theorem trim_trimmed (d : List Char) : Trimmed d (trim d) := by
  simp only [Trimmed, ← charIsWhitespace_iff, Bool.not_eq_true]
  set u := d.dropWhile charIsWhitespace with hu
  refine ⟨d.takeWhile charIsWhitespace, (u.reverse.takeWhile charIsWhitespace).reverse, ?_, ?_, ?_, ?_, ?_⟩
  · have h1 : u = trim d ++ (u.reverse.takeWhile charIsWhitespace).reverse := by
      rw [trim, ← hu, ← List.reverse_append, List.takeWhile_append_dropWhile, List.reverse_reverse]
    rw [List.append_assoc, ← h1, hu, List.takeWhile_append_dropWhile]
  · intro c hc; exact mem_takeWhile' hc
  · intro c hc; exact mem_takeWhile' (List.mem_reverse.1 hc)
  · intro c hc
    have h1 : u = trim d ++ (u.reverse.takeWhile charIsWhitespace).reverse := by
      rw [trim, ← hu, ← List.reverse_append, List.takeWhile_append_dropWhile, List.reverse_reverse]
    have h2 : u.head? = some c := by rw [h1, List.head?_append, hc]; rfl
    rw [hu] at h2
    have := List.head?_dropWhile_not charIsWhitespace d
    rw [h2] at this
    simpa using this
  · intro c hc
    rw [trim, ← hu, List.getLast?_reverse] at hc
    have := List.head?_dropWhile_not charIsWhitespace u.reverse
    rw [hc] at this
    simpa using this

theorem dropWhile_all {p : Char → Bool} {a b : List Char} (h : ∀ c ∈ a, p c = true) :
    (a ++ b).dropWhile p = b.dropWhile p := by
  induction a with
  | nil => rfl
  | cons c a ih =>
    rw [List.cons_append, List.dropWhile_cons, if_pos (h c (by simp))]
    exact ih fun c hc => h c (by simp [hc])

theorem dropWhile_head {p : Char → Bool} {a : List Char} (h : ∀ c, a.head? = some c → p c = false) :
    a.dropWhile p = a := by
  cases a with
  | nil => rfl
  | cons c a => rw [List.dropWhile_cons, if_neg (by simp [h c rfl])]

theorem trimmed_unique {d t : List Char} (h : Trimmed d t) : t = trim d := by
  simp only [Trimmed, ← charIsWhitespace_iff, Bool.not_eq_true] at h
  obtain ⟨pre, post, rfl, h2, h3, h4, h5⟩ := h
  unfold trim
  rw [List.append_assoc, dropWhile_all h2]
  cases t with
  | nil =>
    rw [List.nil_append, show post.dropWhile charIsWhitespace = [] by
      have := dropWhile_all (b := []) h3; simpa using this]
    rfl
  | cons c t =>
    have h0 : (c :: t ++ post).dropWhile charIsWhitespace = c :: t ++ post :=
      dropWhile_head fun x hx => h4 x (by simpa using hx)
    rw [h0, List.reverse_append,
      dropWhile_all (fun x hx => h3 x (List.mem_reverse.1 hx)), dropWhile_head, List.reverse_reverse]
    intro x hx
    rw [List.head?_reverse] at hx
    exact h5 x hx

theorem docHelp_spec (docs : List (List Char)) : HelpOf docs (docHelp docs) := by
  cases docs with
  | nil => exact .inl ⟨rfl, rfl⟩
  | cons d ds => exact .inr ⟨by simp, _, trim_trimmed _, rfl⟩

theorem shownCalls_help (n : Name) (help : Option Bytes) (o : Option (Kind × List (Labels × Metric))) :
    shownCalls n help o = (match help with | some t => [.help n t] | none => []) ++ shownCalls n none o := by
  cases o <;> cases help <;> rfl

theorem writeDocHelp_eq {E : Type} (enc : Encoder E) (n : Name) (docs : List (List Char)) (rest : RS E Unit) :
    (writeDocHelp enc n docs >>= fun _ => rest) =
      (enc.runAll (match docHelp docs with | some t => [.help n t] | none => []) >>= fun _ => rest) := by
  unfold writeDocHelp
  cases docHelp docs with
  | none => rfl
  | some t =>
    simp only [runAll_cons, RS.bind_assoc']
    rfl

/-! ## Groups -/

mutual
theorem group_calls : ∀ (g : Group), (∀ it ∈ items g, ItemLive it) →
    (∀ ns ∈ fieldNamespaces g, constAssertMetricName ns = .ok ()) →
    ∃ css, List.Forall₂ ItemCalls (items g) css ∧
      ∀ (E : Type) (enc : Encoder E), g.collect enc = enc.runAll css.flatten
  | .derived fs, h, hn => by
    obtain ⟨css, h1, h2⟩ := fields_calls fs h hn
    exact ⟨css, h1, fun E enc => by rw [Group.collect]; exact h2 E enc⟩
  | .composed a b, h, hn => by
    obtain ⟨ca, ha, ha'⟩ := group_calls a (fun it hi => h it (by rw [items]; simp [hi]))
      (fun ns hi => hn ns (by rw [fieldNamespaces]; simp [hi]))
    obtain ⟨cb, hb, hb'⟩ := group_calls b (fun it hi => h it (by rw [items]; simp [hi]))
      (fun ns hi => hn ns (by rw [fieldNamespaces]; simp [hi]))
    refine ⟨ca ++ cb, ?_, fun E enc => ?_⟩
    · rw [items]; exact List.rel_append ha hb
    · rw [Group.collect, ha', hb', List.flatten_append, runAll_bind]
  | .namespaced ns g, h, hn => by
    obtain ⟨css, h1, h2⟩ := group_calls g
      (fun it hi => ItemLive.within.1 (h _ (by rw [items]; exact List.mem_map_of_mem (f := Item.within ns) hi)))
      (fun ns hi => hn ns (by rw [fieldNamespaces]; exact hi))
    refine ⟨_, by rw [items]; exact forall₂_within ns h1, fun E enc => ?_⟩
    rw [Group.collect, h2, runAll_ns, flatten_map_map]
  | .absent, _, _ => ⟨[], by rw [items]; exact .nil, fun E enc => by rw [Group.collect]; rfl⟩
  | .present g, h, hn => by
    obtain ⟨css, h1, h2⟩ := group_calls g h hn
    exact ⟨css, h1, fun E enc => by rw [Group.collect]; exact h2 E enc⟩
  | .pointer g, h, hn => by
    obtain ⟨css, h1, h2⟩ := group_calls g h hn
    exact ⟨css, h1, fun E enc => by rw [Group.collect]; exact h2 E enc⟩
  | .manual calls, _, _ => by
    refine ⟨[calls], ?_, fun E enc => by rw [Group.collect]; simp⟩
    rw [items]
    refine .cons ?_ .nil
    have : calls.map (callInPath []) = calls := by
      rw [show callInPath [] = id from funext fun c => by cases c <;> rfl, List.map_id]
    have h := ItemCalls.manual (path := []) (calls := calls)
    rwa [this] at h

theorem fields_calls : ∀ (fs : Fields), (∀ it ∈ itemsF fs, ItemLive it) →
    (∀ ns ∈ fieldNamespacesF fs, constAssertMetricName ns = .ok ()) →
    ∃ css, List.Forall₂ ItemCalls (itemsF fs) css ∧
      ∀ (E : Type) (enc : Encoder E), fs.collect enc = enc.runAll css.flatten
  | .nil, _, _ => ⟨[], by rw [itemsF]; exact .nil, fun E enc => by rw [Fields.collect]; rfl⟩
  | .metric name docs f rest, h, hn => by
    obtain ⟨css, h1, h2⟩ := fields_calls rest (fun it hi => h it (by rw [itemsF]; simp [hi]))
      (fun ns hi => hn ns (by rw [fieldNamespacesF]; exact hi))
    have hf : FamLive f := h (.field [] name docs f) (by rw [itemsF]; simp)
    obtain ⟨o, ho, hc⟩ := fam_calls hf
    refine ⟨shownCalls (.str name) (docHelp docs) o :: css, ?_, fun E enc => ?_⟩
    · rw [itemsF]; exact .cons (.field (docHelp_spec docs) ho) h1
    · rw [Fields.collect, writeDocHelp_eq, hc, h2, List.flatten_cons, runAll_bind,
        shownCalls_help _ (docHelp docs), runAll_bind, RS.bind_assoc']
  | .flatten g rest, h, hn => by
    obtain ⟨ca, ha, ha'⟩ := group_calls g (fun it hi => h it (by rw [itemsF]; simp [hi]))
      (fun ns hi => hn ns (by rw [fieldNamespacesF]; simp [hi]))
    obtain ⟨cb, hb, hb'⟩ := fields_calls rest (fun it hi => h it (by rw [itemsF]; simp [hi]))
      (fun ns hi => hn ns (by rw [fieldNamespacesF]; simp [hi]))
    refine ⟨ca ++ cb, ?_, fun E enc => ?_⟩
    · rw [itemsF]; exact List.rel_append ha hb
    · rw [Fields.collect, ha', hb', List.flatten_append, runAll_bind]
  | .namespaced ns g rest, h, hn => by
    obtain ⟨ca, ha, ha'⟩ := group_calls g
      (fun it hi => ItemLive.within.1 (h (it.within ns) (by
        rw [itemsF]; exact List.mem_append_left _ (List.mem_map_of_mem (f := Item.within ns) hi))))
      (fun ns hi => hn ns (by rw [fieldNamespacesF]; simp [hi]))
    obtain ⟨cb, hb, hb'⟩ := fields_calls rest (fun it hi => h it (by rw [itemsF]; simp [hi]))
      (fun ns hi => hn ns (by rw [fieldNamespacesF]; simp [hi]))
    refine ⟨_, by rw [itemsF]; exact List.rel_append (forall₂_within ns ha) hb, fun E enc => ?_⟩
    rw [Fields.collect, hn ns (by rw [fieldNamespacesF]; simp), RS.lift_bind, ha', runAll_ns, hb',
      List.flatten_append, flatten_map_map, runAll_bind]
end

/-! ## Stopping at the first error -/

theorem recorder_run (fail : Nat → Bool) (c : EncCall) (s : List EncCall) :
    (recorder fail).run c s = (if fail s.length then .err else .ok (), s ++ [c]) := by
  cases c <;> rfl

theorem recorder_ok (fail : Nat → Bool) (cs : List EncCall) : ∀ (s : List EncCall),
    (∀ i < cs.length, fail (s.length + i) = false) → (recorder fail).runAll cs s = (.ok (), s ++ cs) := by
  induction cs with
  | nil => intro s _; simp [Encoder.runAll]
  | cons c cs ih =>
    intro s h
    have h0 : fail s.length = false := by simpa using h 0 (by simp)
    rw [runAll_cons, RS.bind_run, recorder_run, h0]
    simp only [Bool.false_eq_true, if_false]
    rw [ih]
    · simp
    · intro i hi
      have := h (i + 1) (by simpa using hi)
      simpa [Nat.add_assoc, Nat.add_comm 1] using this

theorem recorder_err (fail : Nat → Bool) (cs : List EncCall) : ∀ (s : List EncCall) (k : Nat), k < cs.length →
    (∀ i < k, fail (s.length + i) = false) → fail (s.length + k) = true →
    (recorder fail).runAll cs s = (.err, s ++ cs.take (k + 1)) := by
  induction cs with
  | nil => intro s k h; simp at h
  | cons c cs ih =>
    intro s k hk h hf
    rw [runAll_cons, RS.bind_run, recorder_run]
    cases k with
    | zero => rw [show fail s.length = true by simpa using hf]; simp
    | succ k =>
      rw [show fail s.length = false by simpa using h 0 (by omega)]
      simp only [Bool.false_eq_true, if_false]
      rw [ih _ k (by simpa using hk)]
      · simp
      · intro i hi
        have := h (i + 1) (by omega)
        simpa [Nat.add_assoc, Nat.add_comm 1] using this
      · simpa [Nat.add_assoc, Nat.add_comm 1] using hf

end Measured
